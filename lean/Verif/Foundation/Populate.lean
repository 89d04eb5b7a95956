import Verif.Foundation.Cell
import Verif.Sublat.Lemmas
import Verif.Hopping.Model

/-!
# Lemmas: final numbering and population of the system
-/

namespace Verif.Foundation

open Verif.Lattice (CellSite CellHopping)

/-- The numbers handed out to a run of sites, starting with `t`. -/
def ranks : Nat → List Bool → List Int
  | _, [] => []
  | t, true :: vs => (t : Int) :: ranks (t + 1) vs
  | t, false :: vs => -1 :: ranks t vs

theorem ranks_append (t : Nat) (a b : List Bool) :
    ranks t (a ++ b) = ranks t a ++ ranks (t + a.count true) b := by
  induction a generalizing t with
  | nil => simp [ranks]
  | cons v a ih =>
    cases v
    · simp [ranks, ih]
    · simp [ranks, ih, Nat.add_comm, Nat.add_left_comm]

@[simp] theorem length_ranks (t : Nat) (a : List Bool) : (ranks t a).length = a.length := by
  induction a generalizing t with
  | nil => rfl
  | cons v a ih => cases v <;> simp [ranks, ih]

theorem getElem?_ranks (t k : Nat) (a : List Bool) (v : Bool) (h : a[k]? = some v) :
    (ranks t a)[k]? = some (if v = true then ((t + (a.take k).count true : Nat) : Int) else -1) := by
  induction a generalizing t k with
  | nil => simp at h
  | cons w a ih =>
    cases k with
    | zero =>
      simp only [List.getElem?_cons_zero, Option.some.injEq] at h
      subst h
      cases w <;> simp [ranks]
    | succ k =>
      simp only [List.getElem?_cons_succ] at h
      cases w
      · simp [ranks, ih _ _ h]
      · simp only [ranks, List.getElem?_cons_succ, ih _ _ h, List.take_succ_cons]
        rw [List.count_cons]
        congr 1
        split
        · simp; omega
        · rfl

theorem finBlock_eq (valid : List Bool) (start k : Nat) (st : FinState)
    (h : start + k ≤ valid.length) :
    finBlock valid start k st
      = ⟨st.indices ++ ranks st.total ((valid.drop start).take k),
         st.total + ((valid.drop start).take k).count true,
         st.here + ((valid.drop start).take k).count true⟩ := by
  induction k generalizing start st with
  | zero => simp [finBlock, ranks]
  | succ k ih =>
    have hlt : start < valid.length := by omega
    rw [List.drop_eq_getElem_cons hlt, List.take_succ_cons]
    unfold finBlock
    have hd : valid.getD start false = valid[start] := by
      rw [List.getD_eq_getElem?_getD, List.getElem?_eq_getElem hlt]; rfl
    rw [hd]
    split
    · rename_i hv
      rw [ih _ _ (by omega), hv]
      simp [ranks, Nat.add_assoc, Nat.add_comm, Nat.add_left_comm]
    · rename_i hv
      rw [Bool.not_eq_true] at hv
      rw [ih _ _ (by omega), hv]
      simp [ranks]

/-- The number of valid sites of the block with index `n`. -/
def validIn (valid : List Bool) (block n : Nat) : Nat :=
  ((valid.drop (n * block)).take block).count true

theorem finLoop_eq (valid : List Bool) (block n : Nat) (cell : List CellSite) (f : Finalized)
    (h : (n + cell.length) * block ≤ valid.length) :
    (finLoop valid block n cell f).indices
      = f.indices ++ ranks f.total ((valid.drop (n * block)).take (cell.length * block)) ∧
    (finLoop valid block n cell f).total
      = f.total + ((valid.drop (n * block)).take (cell.length * block)).count true ∧
    (finLoop valid block n cell f).hoppingCounts
      = (cell.mapIdx (fun i s => (s, validIn valid block (n + i)))).foldl
          (fun c p => addCounts c p.1.hoppings p.2) f.hoppingCounts := by
  induction cell generalizing n f with
  | nil => simp [finLoop, ranks]
  | cons s rest ih =>
    rw [List.length_cons] at h ⊢
    have h1 : n * block + block ≤ valid.length := by
      refine Nat.le_trans ?_ h
      calc n * block + block = (n + 1) * block := by ring
        _ ≤ _ := Nat.mul_le_mul_right _ (by omega)
    unfold finLoop
    simp only [finBlock_eq valid _ _ _ h1]
    obtain ⟨i1, i2, i3⟩ := ih (n + 1)
      ⟨f.indices ++ ranks f.total ((valid.drop (n * block)).take block),
        addCounts f.hoppingCounts s.hoppings (0 + ((valid.drop (n * block)).take block).count true),
        f.total + ((valid.drop (n * block)).take block).count true⟩
      (by refine Nat.le_trans (Nat.le_of_eq ?_) h; ring)
    have hsplit : (valid.drop (n * block)).take ((rest.length + 1) * block)
        = (valid.drop (n * block)).take block
          ++ (valid.drop ((n + 1) * block)).take (rest.length * block) := by
      rw [show (rest.length + 1) * block = block + rest.length * block by ring, List.take_add,
        List.drop_drop]
      rw [show n * block + block = (n + 1) * block by ring]
    refine ⟨?_, ?_, ?_⟩
    · rw [i1, hsplit, ranks_append, List.append_assoc]
    · rw [i2, hsplit, List.count_append]
      simp only
      omega
    · rw [i3, List.mapIdx_cons]
      simp only [List.foldl_cons, Nat.add_zero, Nat.zero_add, validIn]
      congr 1
      apply List.ext_getElem?
      intro i
      simp only [List.getElem?_mapIdx]
      rw [show n + 1 + i = n + (i + 1) by omega]

theorem finalize_eq (d : Dims) (cell : List CellSite) (nhop : Nat) (valid : List Bool)
    (h : valid.length = size d cell.length) :
    (finalize d cell nhop valid).indices = ranks 0 valid ∧
    (finalize d cell nhop valid).total = valid.count true := by
  have hl : cell.length * d.prod = valid.length := by rw [h, size, Nat.mul_comm]
  obtain ⟨h1, h2, -⟩ := finLoop_eq valid d.prod 0 cell ⟨[], List.replicate nhop 0, 0⟩ (by
    rw [Nat.zero_add, hl])
  unfold finalize
  rw [h1, h2]
  simp [hl]

/-! ## Reserved sizes -/

theorem getElem?_addCounts (counts : List Nat) (hs : List CellHopping) (n f : Nat) (c : Nat)
    (h : counts[f]? = some c) :
    (addCounts counts hs n)[f]?
      = some (c + (hs.countP (fun x => x.isConjugate = false ∧ x.familyId = f)) * n) := by
  induction hs generalizing counts c with
  | nil => simp [addCounts, h]
  | cons x hs ih =>
    unfold addCounts at ih ⊢
    rw [List.foldl_cons]
    rcases hx : x.isConjugate with _ | _
    · simp only [Bool.false_eq_true, if_false]
      by_cases hf : x.familyId = f
      · rw [ih (counts.modify x.familyId (· + n)) (c + n) (by
          rw [List.getElem?_modify, h]; simp [hf])]
        rw [List.countP_cons]
        simp only [hx, hf, true_and, decide_true, if_true]
        congr 1; ring
      · rw [ih (counts.modify x.familyId (· + n)) c (by
          rw [List.getElem?_modify, h]; simp [hf])]
        rw [List.countP_cons]
        simp [hf]
    · simp only [if_true]
      rw [ih counts c h, List.countP_cons]
      simp [hx]

theorem foldl_addCounts (ps : List (CellSite × Nat)) (counts : List Nat) (f c : Nat)
    (h : counts[f]? = some c) :
    (ps.foldl (fun c p => addCounts c p.1.hoppings p.2) counts)[f]? =
      some (c + (ps.map fun p =>
        (p.1.hoppings.countP (fun x => x.isConjugate = false ∧ x.familyId = f)) * p.2).sum) := by
  induction ps generalizing counts c with
  | nil => simp [h]
  | cons p ps ih =>
    rw [List.foldl_cons, ih _ _ (getElem?_addCounts counts p.1.hoppings p.2 f c h)]
    simp [Nat.add_assoc]

/-! ## The neighbour loop -/

/-- What the neighbour loop adds to the block of family `fam`. -/
def entry (f : Finalized) (index fam : Nat) (p : Site × CellHopping) : Option Hopping.COO :=
  if finIndex f p.1 < 0 then none
  else if p.2.isConjugate then none
  else if p.2.familyId = fam then some ⟨index, (finIndex f p.1).toNat⟩ else none

theorem addHoppings_eq (f : Finalized) (index : Nat) (nb : List (Site × CellHopping))
    (h : Hopping.HoppingBlocks) (hf : ∀ p ∈ nb, p.2.familyId < h.blocks.length) :
    addHoppings f index nb h = .ok { h with
      blocks := h.blocks.mapIdx (fun fam b => b ++ nb.filterMap (entry f index fam)) } := by
  induction nb generalizing h with
  | nil =>
    have : h.blocks.mapIdx (fun fam b => b ++ ([] : List (Site × CellHopping)).filterMap
        (entry f index fam)) = h.blocks := by
      apply List.ext_getElem?
      intro i
      simp [List.getElem?_mapIdx]
    rw [this]
    rfl
  | cons p nb ih =>
    obtain ⟨n, hop⟩ := p
    have hlt := hf _ List.mem_cons_self
    simp only at hlt
    have hrest : ∀ p ∈ nb, p.2.familyId < h.blocks.length :=
      fun p hp => hf p (List.mem_cons_of_mem _ hp)
    unfold addHoppings
    split
    · rename_i h1
      rw [ih h hrest]
      congr 2
      apply List.ext_getElem?
      intro i
      simp [List.getElem?_mapIdx, List.filterMap_cons, entry, h1]
    · rename_i h1
      split
      · rename_i h2
        rw [ih h hrest]
        congr 2
        apply List.ext_getElem?
        intro i
        simp [List.getElem?_mapIdx, List.filterMap_cons, entry, h1, h2]
      · rename_i h2
        unfold Hopping.HoppingBlocks.add
        rw [if_pos hlt, Res.bind_ok, ih _ (by simpa using hrest)]
        congr 2
        apply List.ext_getElem?
        intro i
        simp only [List.getElem?_mapIdx, List.getElem?_modify]
        rcases h.blocks[i]? with _ | b
        · simp
        · by_cases hi : hop.familyId = i
          · simp [List.filterMap_cons, entry, h1, h2, hi]
          · simp [List.filterMap_cons, entry, h1, h2, hi]

/-! ## The site loop -/

/-- The valid sites of a list of sites, with their final index. -/
def numbered (f : Finalized) (ss : List Site) : List (Site × Nat) :=
  ss.filterMap fun s => if finIndex f s < 0 then none else some (s, (finIndex f s).toNat)

/-- What the site loop adds to the block of family `fam`. -/
def siteEntries (d : Dims) (cell : List CellSite) (f : Finalized) (fam : Nat) (ps : List (Site × Nat)) :
    List Hopping.COO :=
  ps.flatMap fun p => (neighbors d cell p.1.loc).filterMap (entry f p.2 fam)

theorem mem_neighbors {d : Dims} {cell : List CellSite} {l : Loc} {p : Site × CellHopping}
    (h : p ∈ neighbors d cell l) :
    p.2 ∈ hoppingsAt cell l.sub ∧ inBounds d (l.idx.add p.2.rel) = true ∧
      p.1 = Site.at d (l.idx.add p.2.rel) p.2.toIdx := by
  unfold neighbors at h
  rw [List.mem_filterMap] at h
  obtain ⟨x, hx, hx'⟩ := h
  simp only at hx'
  split at hx'
  · simp only [Option.some.injEq] at hx'
    subst hx'
    exact ⟨hx, by assumption, rfl⟩
  · simp at hx'

/-- The requests to the sublattice table. -/
def addOps (cell : List CellSite) (ps : List (Site × Nat)) : List Sublat.Spec.AddOp :=
  ps.filterMap fun p => (cell[p.1.loc.sub]?).map fun c => ⟨c.aliasId, c.norb, 1⟩

theorem populateLoop_eq {P : Type} (d : Dims) (cell : List CellSite) (nhop : Nat)
    (hok : CellOK cell nhop) (f : Finalized) (pos : Nat → P) (junk : P) (ss : List Site)
    (hss : ∀ s ∈ ss, s.loc.sub < cell.length) (pre : List P) (m : Nat) (tbl : Sublat.Table)
    (hb : Hopping.HoppingBlocks) (bds : List Hopping.HoppingBlocks) (iv : List Bool)
    (hbl : nhop ≤ hb.blocks.length)
    (hidx : (numbered f ss).map (·.2) = List.range' pre.length m) :
    populateLoop d cell f pos ss
      ⟨pre ++ List.replicate m junk, tbl, hb, bds, iv⟩ = .ok
      ⟨pre ++ (numbered f ss).map (fun p => pos p.1.flat.toNat),
       (addOps cell (numbered f ss)).foldl (fun t o => Sublat.add t o.id o.norb o.count) tbl,
       { hb with
         blocks := hb.blocks.mapIdx (fun fam b => b ++ siteEntries d cell f fam (numbered f ss)) },
       bds, iv⟩ := by
  induction ss generalizing pre m tbl hb with
  | nil =>
    have hm : m = 0 := by
      have := congrArg List.length hidx
      simpa [numbered] using this.symm
    subst hm
    have : hb.blocks.mapIdx (fun fam b => b ++ siteEntries d cell f fam []) = hb.blocks := by
      apply List.ext_getElem?
      intro i
      simp [List.getElem?_mapIdx, siteEntries]
    simp [populateLoop, numbered, addOps, this]
  | cons s ss ih =>
    have hss' : ∀ s ∈ ss, s.loc.sub < cell.length := fun x hx => hss x (List.mem_cons_of_mem _ hx)
    unfold populateLoop
    by_cases h1 : finIndex f s < 0
    · have hn : numbered f (s :: ss) = numbered f ss := by
        simp [numbered, List.filterMap_cons, h1]
      rw [if_pos h1, hn]
      rw [hn] at hidx
      exact ih hss' pre m tbl hb hbl hidx
    · have hn : numbered f (s :: ss) = (s, (finIndex f s).toNat) :: numbered f ss := by
        simp [numbered, List.filterMap_cons, h1]
      rw [if_neg h1]
      rw [hn] at hidx
      cases m with
      | zero => simp at hidx
      | succ m =>
        rw [List.map_cons, List.range'_succ, List.cons.injEq] at hidx
        obtain ⟨hi, hrest⟩ := hidx
        simp only at hi
        have hlt := hss s List.mem_cons_self
        have hc := List.getElem?_eq_getElem hlt
        rw [hc]
        simp only
        rw [addHoppings_eq f _ _ hb (by
          intro p hp
          exact Nat.lt_of_lt_of_le (hok.target _ p.2 (mem_neighbors hp).1).2 hbl)]
        rw [Res.bind_ok]
        have hset : (pre ++ List.replicate (m + 1) junk).set (finIndex f s).toNat (pos s.flat.toNat)
            = (pre ++ [pos s.flat.toNat]) ++ List.replicate m junk := by
          rw [hi, List.replicate_succ, List.set_append_right _ _ (Nat.le_refl _)]
          simp
        rw [hset, ih hss' (pre ++ [pos s.flat.toNat]) m _ _ (by simpa using hbl) (by simpa using hrest)]
        rw [hn]
        congr 1
        simp only [List.map_cons, List.append_assoc, List.singleton_append]
        congr 1
        · simp [addOps, List.filterMap_cons, hc]
        · congr 1
          apply List.ext_getElem?
          intro i
          simp only [List.getElem?_mapIdx]
          rcases hb.blocks[i]? with _ | b
          · simp
          · simp [siteEntries]

end Verif.Foundation
