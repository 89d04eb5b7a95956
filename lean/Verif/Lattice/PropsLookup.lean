import Verif.Lattice.Props

/-!
# C09: looking up hoppings, and unknown names and ids
-/

set_option linter.dupNamespace false
set_option linter.unusedSectionVars false

namespace Verif.Lattice

variable {K P : Type} [DecidableEq K] [Zero K] [InvolutiveStar K]

open Lattice (run empty step)

/-- **C09**: a hopping family is found by its name and by its number, and both give the same family. -/
theorem C09_hopping_lookups (ops : List (Lattice.Op K P)) (i : Nat) (name : String) (f : HoppingFamily K)
    (h : (run ops empty).hops[i]? = some (name, f)) :
    (run ops empty).hopByName name = .ok f ∧ (run ops empty).hopById i = .ok f := by
  have inv := Inv.reachable (K := K) (P := P) ops
  generalize run ops empty = l at *
  constructor
  · unfold Lattice.hopByName
    rw [lookup_of_mem inv.hopNames (List.mem_of_getElem? h)]
  · unfold Lattice.hopById
    rcases hf : l.hops.find? (fun p => p.2.familyId == i) with _ | p
    · rw [List.find?_eq_none] at hf
      have := hf _ (List.mem_of_getElem? h)
      have hid := inv.hopIds i _ h
      simp only [beq_iff_eq] at this
      exact absurd hid this
    · have h1 := List.find?_some hf
      obtain ⟨j, hj⟩ := List.mem_iff_getElem?.1 (List.mem_of_find?_eq_some hf)
      simp only [beq_iff_eq] at h1
      have h3 := inv.hopIds j _ hj
      rw [← h3, h1, h] at hj
      simp only [Option.some.injEq] at hj
      subst hj
      rw [hf]

/-- **C09**: names and numbers which were not handed out are rejected. -/
theorem C09_unknown (ops : List (Lattice.Op K P)) :
    let l := run ops empty
    (∀ name, name ∉ l.subs.map (·.1) → l.subByName name = .err .outOfRange) ∧
    (∀ name, name ∉ l.hops.map (·.1) → l.hopByName name = .err .outOfRange) ∧
    (∀ i, l.subs.length ≤ i → l.subById i = .err .outOfRange) ∧
    (∀ i, l.hops.length ≤ i → l.hopById i = .err .outOfRange) := by
  intro l
  have inv : Inv l := Inv.reachable (K := K) (P := P) ops
  clear_value l
  refine ⟨fun n hn => ?_, fun n hn => ?_, fun i hi => ?_, fun i hi => ?_⟩
  · unfold Lattice.subByName
    rw [lookup_none_iff.2 hn]
  · unfold Lattice.hopByName
    rw [lookup_none_iff.2 hn]
  · unfold Lattice.subById
    have : l.subs.find? (fun p => p.2.uniqueId == i) = none := by
      rw [List.find?_eq_none]
      intro p hp
      obtain ⟨j, hj⟩ := List.mem_iff_getElem?.1 hp
      have h1 := inv.subIds j _ hj
      have h2 := (List.getElem?_eq_some_iff.1 hj).1
      simp only [beq_iff_eq]
      omega
    rw [this]
  · unfold Lattice.hopById
    have : l.hops.find? (fun p => p.2.familyId == i) = none := by
      rw [List.find?_eq_none]
      intro p hp
      obtain ⟨j, hj⟩ := List.mem_iff_getElem?.1 hp
      have h1 := inv.hopIds j _ hj
      have h2 := (List.getElem?_eq_some_iff.1 hj).1
      simp only [beq_iff_eq]
      omega
    rw [this]

example : ∃ f, (run graphene empty).hops[0]? = some ("t", f) := ⟨_, rfl⟩

example : "C" ∉ (run graphene empty).subs.map (·.1) ∧ (run graphene empty).hops.length ≤ 2 := by decide

end Verif.Lattice
