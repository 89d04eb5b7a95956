import Verif.Foundation.PopulateLemmas
import Verif.Sublat.Props

/-!
# `populate_system` as a whole
-/

namespace Verif.Foundation

open Verif.Lattice (CellSite CellHopping)

variable {d : Dims} {cell : List CellSite} {nhop : Nat} {valid : List Bool}

/-- The unit cell site of foundation site `k`. -/
def cellAt (d : Dims) (cell : List CellSite) (k : Nat) : Option CellSite := cell[(locOf d k).sub]?

theorem cellAt_lt (hl : valid.length = size d cell.length) {k : Nat} (hk : k < valid.length) :
    (locOf d k).sub < cell.length := by
  have := locOf_in (d := d) (nsub := cell.length) (hl ▸ hk)
  exact this.2.2.2.2.2.2

theorem maskFilter_map {α β : Type} (g : α → β) (m : List Bool) (xs : List α) :
    (maskFilter m xs).map g = maskFilter m (xs.map g) := by
  induction m generalizing xs with
  | nil => cases xs <;> simp [maskFilter]
  | cons b m ih =>
    cases xs with
    | nil => cases b <;> simp [maskFilter]
    | cons x xs => cases b <;> simp [maskFilter, ih]

/-- The additions made by `populate_system`. -/
def popOps (d : Dims) (cell : List CellSite) (valid : List Bool) : List Sublat.Spec.AddOp :=
  maskFilter valid ((List.range valid.length).map fun k : Nat =>
    match cell[(locOf d k).sub]? with
    | some c => (⟨c.aliasId, c.norb, 1⟩ : Sublat.Spec.AddOp)
    | none => ⟨0, 0, 0⟩)

theorem popOps_eq (valid : List Bool) : popOps d cell valid = (validPairs valid).map fun p =>
    match cell[(locOf d p.1).sub]? with
    | some c => (⟨c.aliasId, c.norb, 1⟩ : Sublat.Spec.AddOp)
    | none => ⟨0, 0, 0⟩ := by
  exact (map_fst_validPairs valid (fun k => match cell[(locOf d k).sub]? with
    | some c => (⟨c.aliasId, c.norb, 1⟩ : Sublat.Spec.AddOp)
    | none => ⟨0, 0, 0⟩)).symm

theorem mem_popOps (hl : valid.length = size d cell.length) {o : Sublat.Spec.AddOp}
    (h : o ∈ popOps d cell valid) : ∃ c ∈ cell, o = ⟨c.aliasId, c.norb, 1⟩ := by
  rw [popOps_eq] at h
  obtain ⟨p, hp, rfl⟩ := List.mem_map.1 h
  have hv := (mem_validPairs.1 hp).1
  have hk : p.1 < valid.length := (List.getElem?_eq_some_iff.1 hv).1
  have hs := cellAt_lt hl hk
  rw [List.getElem?_eq_getElem hs]
  exact ⟨_, List.getElem_mem hs, rfl⟩

theorem popOps_consistent (hok : CellOK cell nhop) (hl : valid.length = size d cell.length) :
    Sublat.Spec.Consistent (popOps d cell valid) := by
  intro a ha b hb e
  obtain ⟨x, hx, rfl⟩ := mem_popOps hl ha
  obtain ⟨y, hy, rfl⟩ := mem_popOps hl hb
  exact hok.norb x hx y hy (by simpa using e)

theorem validPairs_sorted (valid : List Bool) :
    (validPairs valid).Pairwise (fun a b => a.1 < b.1) := by
  unfold validPairs
  rw [List.pairwise_filterMap]
  refine (List.pairwise_lt_range (n := valid.length)).imp ?_
  intro a b hab p hp q hq
  split at hp <;> simp at hp
  split at hq <;> simp at hq
  subst hp hq
  exact hab

theorem popOps_sorted (hok : CellOK cell nhop) (hl : valid.length = size d cell.length) :
    (popOps d cell valid).Pairwise (fun a b => a.norb < b.norb ∨ (a.norb = b.norb ∧ a.id ≤ b.id)) := by
  rw [popOps_eq, List.pairwise_map]
  refine (validPairs_sorted valid).imp_of_mem ?_
  intro p q hp hq hpq
  have hkp : p.1 < valid.length := (List.getElem?_eq_some_iff.1 (mem_validPairs.1 hp).1).1
  have hkq : q.1 < valid.length := (List.getElem?_eq_some_iff.1 (mem_validPairs.1 hq).1).1
  have h1 := cellAt_lt hl hkp
  have h2 := cellAt_lt hl hkq
  rw [List.getElem?_eq_getElem h1, List.getElem?_eq_getElem h2]
  simp only
  have hle : (locOf d p.1).sub ≤ (locOf d q.1).sub := by
    rw [locOf_sub, locOf_sub]
    exact Nat.div_le_div_right (Nat.le_of_lt hpq)
  rcases Nat.lt_or_ge (locOf d p.1).sub (locOf d q.1).sub with h | h
  · have := (List.pairwise_iff_getElem.1 hok.sorted) _ _ h1 h2 h
    omega
  · have e : (locOf d p.1).sub = (locOf d q.1).sub := by omega
    right
    simp [e]

theorem flatMap_replicate_one {α β : Type} (xs : List α) (c : α → Nat) (g : α → β)
    (h : ∀ x ∈ xs, c x = 1) : (xs.flatMap fun x => List.replicate (c x) (g x)) = xs.map g := by
  induction xs with
  | nil => rfl
  | cons x xs ih =>
    rw [List.flatMap_cons, h x List.mem_cons_self, ih (fun y hy => h y (List.mem_cons_of_mem _ hy))]
    rfl

theorem count_one (hl : valid.length = size d cell.length) : ∀ o ∈ popOps d cell valid, o.count = 1 := by
  intro o ho
  obtain ⟨c, -, rfl⟩ := mem_popOps hl ho
  rfl

theorem popOps_labels (hl : valid.length = size d cell.length) :
    (Sublat.Spec.labels (popOps d cell valid)).map some
      = maskFilter valid ((List.range valid.length).map fun k =>
          (cellAt d cell k).map fun c => (c.aliasId : Int)) := by
  unfold Sublat.Spec.labels
  rw [flatMap_replicate_one _ _ _ (count_one hl), List.map_map, popOps_eq, List.map_map,
    ← map_fst_validPairs valid (fun k => (cellAt d cell k).map fun c => (c.aliasId : Int))]
  apply List.map_congr_left
  intro p hp
  have hkp : p.1 < valid.length := (List.getElem?_eq_some_iff.1 (mem_validPairs.1 hp).1).1
  have h1 := cellAt_lt hl hkp
  simp [cellAt, List.getElem?_eq_getElem h1]

theorem popOps_norbs (hl : valid.length = size d cell.length) :
    (Sublat.Spec.norbs (popOps d cell valid)).map some
      = maskFilter valid ((List.range valid.length).map fun k => (cellAt d cell k).map (·.norb)) := by
  unfold Sublat.Spec.norbs
  rw [flatMap_replicate_one _ _ _ (count_one hl), List.map_map, popOps_eq, List.map_map,
    ← map_fst_validPairs valid (fun k => (cellAt d cell k).map (·.norb))]
  apply List.map_congr_left
  intro p hp
  have hkp : p.1 < valid.length := (List.getElem?_eq_some_iff.1 (mem_validPairs.1 hp).1).1
  have h1 := cellAt_lt hl hkp
  simp [cellAt, List.getElem?_eq_getElem h1]

theorem popOps_length (valid : List Bool) : (popOps d cell valid).length = valid.count true := by
  rw [popOps_eq, List.length_map]
  have := congrArg List.length (map_snd_validPairs valid)
  simpa using this

theorem popOps_verify (hok : CellOK cell nhop) (hl : valid.length = size d cell.length) :
    Sublat.verify (Sublat.runAdds (popOps d cell valid)) (valid.count true) = .ok () := by
  rw [(Sublat.C03_verify_iff _ _).1]
  obtain ⟨h1, h2⟩ := runAdds_sorted _ (popOps_sorted hok hl) (popOps_consistent hok hl)
  refine ⟨?_, h1, h2⟩
  rw [(Sublat.C01_labels_roundtrip _).1, List.length_map]
  unfold Sublat.Spec.labels
  rw [flatMap_replicate_one _ _ _ (count_one hl), List.length_map, popOps_length]

/-- The whole of `populate_system`. -/
theorem populateSystem_eq {P : Type} (hok : CellOK cell nhop)
    (hl : valid.length = size d cell.length) (nameMap : List (String × Nat))
    (hn : nhop ≤ nameMap.length) (pos : Nat → P) (junk : P) :
    populateSystem d cell nhop nameMap valid pos junk = .ok
      ⟨maskFilter valid ((List.range valid.length).map pos),
       Sublat.runAdds (popOps d cell valid),
       ⟨valid.count true, (List.range nameMap.length).map fun fam =>
          siteEntries d cell (finalize d cell nhop valid) fam
            ((validPairs valid).map fun p => (siteAt d p.1, p.2)), nameMap⟩, [], []⟩ := by
  unfold populateSystem
  simp only
  have hnum := numbered_sites (nhop := nhop) hl
  have htot := (finalize_eq d cell nhop valid hl).2
  have hloop := populateLoop_eq d cell nhop hok (finalize d cell nhop valid) pos junk
    (sites d cell.length)
    (by
      intro s hs
      rw [sites_eq] at hs
      obtain ⟨k, hk, rfl⟩ := List.mem_map.1 hs
      exact cellAt_lt hl (hl ▸ List.mem_range.1 hk))
    [] (valid.count true) [] (Hopping.HoppingBlocks.make (valid.count true) nameMap) [] []
    (by simpa [Hopping.HoppingBlocks.make] using hn)
    (by
      rw [hnum, List.map_map]
      have : ((fun p : Site × Nat => p.2) ∘ fun p : Nat × Nat => (siteAt d p.1, p.2)) = (·.2) := rfl
      rw [this, map_snd_validPairs, List.range_eq_range']
      rfl)
  rw [List.nil_append] at hloop
  rw [htot, hloop, Res.bind_ok]
  have hops : (addOps cell (numbered (finalize d cell nhop valid) (sites d cell.length))).foldl
      (fun t o => Sublat.add t o.id o.norb o.count) [] = Sublat.runAdds (popOps d cell valid) := by
    rw [hnum, addOps_eq hl]
    rfl
  rw [hops]
  simp only
  rw [popOps_verify hok hl, Res.bind_ok]
  simp only [List.nil_append]
  rw [hnum, List.map_map]
  have hp : (validPairs valid).map ((fun p : Site × Nat => pos p.1.flat.toNat) ∘
      fun p : Nat × Nat => (siteAt d p.1, p.2))
      = maskFilter valid ((List.range valid.length).map pos) := by
    rw [← map_fst_validPairs valid pos]
    apply List.map_congr_left
    intro p _
    simp [siteAt]
  rw [hp]
  congr 3
  simp only [Hopping.HoppingBlocks.make]
  apply List.ext_getElem
  · simp
  · intro i h1 h2
    simp

end Verif.Foundation
