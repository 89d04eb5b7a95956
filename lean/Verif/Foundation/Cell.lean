import Verif.Foundation.Walk
import Verif.Lattice.Props

/-!
# What the optimised unit cell of a lattice guarantees to the foundation
-/

namespace Verif.Foundation

open Verif.Lattice (CellSite CellHopping HoppingFamily HoppingTerm Sublattice optimizedUnitCell)
open Verif.Lattice.Lattice (run empty allTerms)

/-- The guarantees of the optimised unit cell used below. -/
structure CellOK (cell : List CellSite) (nhop : Nat) : Prop where
  target : ∀ i, ∀ h ∈ hoppingsAt cell i, h.toIdx < cell.length ∧ h.familyId < nhop
  sym : ∀ i j, i < cell.length → j < cell.length → ∀ r f c,
    (hoppingsAt cell i).count ⟨r, j, f, c⟩ = (hoppingsAt cell j).count ⟨r.neg, i, f, !c⟩
  noSelf : ∀ i, ∀ h ∈ hoppingsAt cell i, ¬ (h.rel = Index3.zero ∧ h.toIdx = i)
  once : ∀ i r j, (hoppingsAt cell i).countP (fun h => h.rel = r ∧ h.toIdx = j) ≤ 1
  sorted : cell.Pairwise (fun a b => a.norb < b.norb ∨ (a.norb = b.norb ∧
        (a.aliasId < b.aliasId ∨ (a.aliasId = b.aliasId ∧ a.uniqueId < b.uniqueId))))
  norb : ∀ a ∈ cell, ∀ b ∈ cell, a.aliasId = b.aliasId → a.norb = b.norb

theorem neg_inj {a b : Index3} : a.neg = b.neg ↔ a = b := by
  constructor
  · intro h
    rw [← Index3.neg_neg a, h, Index3.neg_neg]
  · intro h; rw [h]

theorem neg_zero : Index3.zero.neg = Index3.zero := by simp [Index3.neg, Index3.zero]

/-- Counting an entry in what a site sees of the terms. -/
theorem count_seen {K : Type} (pos : Nat → Nat) (u : Nat) (ts : List (HoppingFamily K × HoppingTerm))
    (r : Index3) (j f : Nat) (c : Bool) :
    (ts.flatMap (Lattice.seen pos u)).count ⟨r, j, f, c⟩ =
      if c = false then
        ts.countP (fun p => p.2.src = u ∧ p.2.rel = r ∧ pos p.2.dst = j ∧ p.1.familyId = f)
      else
        ts.countP (fun p => p.2.dst = u ∧ p.2.rel = r.neg ∧ pos p.2.src = j ∧ p.1.familyId = f) := by
  induction ts with
  | nil => simp
  | cons p ts ih =>
    rw [List.flatMap_cons, List.count_append, ih]
    cases c
    · simp only [List.countP_cons, if_true]
      unfold Lattice.seen
      by_cases h1 : p.2.src = u <;> by_cases h2 : p.2.dst = u <;>
        simp [h1, h2, List.count_cons, Nat.add_comm]
    · simp only [List.countP_cons, Bool.true_eq_false, if_false]
      unfold Lattice.seen
      by_cases h1 : p.2.src = u <;> by_cases h2 : p.2.dst = u <;>
        simp [h1, h2, List.count_cons, Nat.add_comm, Index3.neg_eq_iff]

section
variable {K P : Type} [DecidableEq K] [Zero K] [InvolutiveStar K]

/-- The unit cell of every lattice has the guarantees, and its hoppings are those of the lattice. -/
theorem cell_of_lattice (ops : List (Lattice.Lattice.Op K P))
    (subs : List (String × Sublattice K P)) (hops : List (String × HoppingFamily K))
    (hs : subs.Perm (run ops empty).subs) (hh : hops.Perm (run ops empty).hops) :
    ∃ cell, optimizedUnitCell subs hops = .ok cell ∧
      CellOK cell (run ops empty).hops.length ∧
      cell.length = (run ops empty).subs.length ∧
      ((cell.map (fun s => (s.norb, s.uniqueId, s.aliasId))).Perm
        ((run ops empty).subs.map (fun p => (p.2.energy.cols, p.2.uniqueId, p.2.aliasId)))) ∧
      ∀ (i j : Nat) (a b : CellSite), cell[i]? = some a → cell[j]? = some b → ∀ r f,
        (hoppingsAt cell i).count ⟨r, j, f, false⟩ =
          (allTerms (run ops empty).hops).countP (fun p =>
            p.2.src = a.uniqueId ∧ p.2.rel = r ∧ p.2.dst = b.uniqueId ∧ p.1.familyId = f) := by
  obtain ⟨cell, h1, h2, h3, pos, h4, h5⟩ := Lattice.C11_unit_cell ops subs hops hs hh
  have inv := Lattice.Inv.reachable (K := K) (P := P) ops
  generalize run ops empty = l at *
  have hlen : cell.length = l.subs.length := by simpa using h2.length_eq
  have huid : ∀ s ∈ cell, s.uniqueId < l.subs.length := by
    intro s hs
    have := h2.mem_iff.1 (List.mem_map.2 ⟨s, hs, rfl⟩)
    obtain ⟨p, hp, hp'⟩ := List.mem_map.1 this
    simp only [Prod.mk.injEq] at hp'
    obtain ⟨i, hi⟩ := List.mem_iff_getElem?.1 hp
    rw [← hp'.2.1, inv.subIds i p hi]
    exact (List.getElem?_eq_some_iff.1 hi).1
  have hnd : (cell.map (·.uniqueId)).Nodup := by
    have : (cell.map (·.uniqueId)).Perm (l.subs.map (·.2.uniqueId)) := by
      have := h2.map (fun x : Nat × Nat × Nat => x.2.1)
      simpa [List.map_map, Function.comp_def] using this
    rw [this.nodup_iff]
    exact inv.nodup_ids
  -- the position function inverts the unique ids
  have hpos : ∀ (j : Nat) (b : CellSite), cell[j]? = some b → ∀ u, u < l.subs.length →
      (pos u = j ↔ u = b.uniqueId) := by
    intro j b hb u hu
    obtain ⟨s, hs1, hs2⟩ := h4 u hu
    constructor
    · intro h
      rw [h, hb] at hs1
      simp only [Option.some.injEq] at hs1
      rw [hs1, hs2]
    · intro h
      exact Lattice.eq_of_uniqueId hnd hs1 hb (by rw [hs2, h])
  have hposlt : ∀ u, u < l.subs.length → pos u < cell.length := by
    intro u hu
    obtain ⟨s, hs1, -⟩ := h4 u hu
    exact (List.getElem?_eq_some_iff.1 hs1).1
  have hends : ∀ p ∈ allTerms l.hops, p.2.src < l.subs.length ∧ p.2.dst < l.subs.length := by
    rintro ⟨f, t⟩ hm
    obtain ⟨n, hn1, hn2⟩ := Lattice.Lattice.mem_allTerms.1 hm
    obtain ⟨a, b, ha, hb', -⟩ := inv.ends _ hn1 t hn2
    obtain ⟨hal, -⟩ := List.getElem?_eq_some_iff.1 ha
    obtain ⟨hbl, -⟩ := List.getElem?_eq_some_iff.1 hb'
    exact ⟨hal, hbl⟩
  have hfam : ∀ p ∈ allTerms l.hops, p.1.familyId < l.hops.length := by
    rintro ⟨f, t⟩ hm
    obtain ⟨n, hn1, hn2⟩ := Lattice.Lattice.mem_allTerms.1 hm
    obtain ⟨i, hi⟩ := List.mem_iff_getElem?.1 hn1
    have := inv.hopIds i _ hi
    simp only at this ⊢
    rw [this]
    exact (List.getElem?_eq_some_iff.1 hi).1
  have hat : ∀ (i : Nat) (a : CellSite), cell[i]? = some a →
      (hoppingsAt cell i).Perm ((allTerms l.hops).flatMap (Lattice.seen pos a.uniqueId)) := by
    intro i a ha
    have : hoppingsAt cell i = a.hoppings := by simp [hoppingsAt, ha]
    rw [this]
    exact h5 a (List.mem_of_getElem? ha)
  have hcnt : ∀ (i j : Nat) (a b : CellSite), cell[i]? = some a → cell[j]? = some b → ∀ r f c,
      (hoppingsAt cell i).count ⟨r, j, f, c⟩ =
      if c = false then
        (allTerms l.hops).countP (fun p =>
          p.2.src = a.uniqueId ∧ p.2.rel = r ∧ p.2.dst = b.uniqueId ∧ p.1.familyId = f)
      else
        (allTerms l.hops).countP (fun p =>
          p.2.dst = a.uniqueId ∧ p.2.rel = r.neg ∧ p.2.src = b.uniqueId ∧ p.1.familyId = f) := by
    intro i j a b ha hb r f c
    rw [(hat i a ha).count_eq, count_seen]
    cases c
    · simp only [if_true]
      apply List.countP_congr
      intro p hp
      simp only [decide_eq_true_eq, hpos j b hb _ (hends p hp).2]
    · simp only [Bool.true_eq_false, if_false]
      apply List.countP_congr
      intro p hp
      simp only [decide_eq_true_eq, hpos j b hb _ (hends p hp).1]
  have hsome : ∀ i, ∀ h ∈ hoppingsAt cell i, ∃ a, cell[i]? = some a := by
    intro i h hm
    rcases hi : cell[i]? with _ | a
    · simp [hoppingsAt, hi] at hm
    · exact ⟨a, rfl⟩
  have hmem : ∀ i (a : CellSite), cell[i]? = some a → ∀ h ∈ hoppingsAt cell i,
      ∃ p ∈ allTerms l.hops, h.familyId = p.1.familyId ∧
        ((p.2.src = a.uniqueId ∧ h.rel = p.2.rel ∧ h.toIdx = pos p.2.dst) ∨
         (p.2.dst = a.uniqueId ∧ h.rel = p.2.rel.neg ∧ h.toIdx = pos p.2.src)) := by
    intro i a ha h hm
    rw [(hat i a ha).mem_iff] at hm
    obtain ⟨p, hp, hp'⟩ := List.mem_flatMap.1 hm
    refine ⟨p, hp, ?_⟩
    unfold Lattice.seen at hp'
    rcases List.mem_append.1 hp' with hp' | hp'
    · split at hp'
      · simp only [List.mem_singleton] at hp'
        subst hp'
        exact ⟨rfl, .inl ⟨by assumption, rfl, rfl⟩⟩
      · simp at hp'
    · split at hp'
      · simp only [List.mem_singleton] at hp'
        subst hp'
        exact ⟨rfl, .inr ⟨by assumption, rfl, rfl⟩⟩
      · simp at hp'
  have htermmem : ∀ p ∈ allTerms l.hops, p.2 ∈ Lattice.terms l := by
    intro p hp
    rw [Lattice.Lattice.terms_eq]
    exact List.mem_map.2 ⟨p, hp, rfl⟩
  refine ⟨cell, h1, ⟨?_, ?_, ?_, ?_, h3, ?_⟩, hlen, h2, ?_⟩
  · intro i h hm
    obtain ⟨a, ha⟩ := hsome i h hm
    obtain ⟨p, hp, hf, hc⟩ := hmem i a ha h hm
    refine ⟨?_, by rw [hf]; exact hfam p hp⟩
    rcases hc with ⟨-, -, hc⟩ | ⟨-, -, hc⟩
    · rw [hc]; exact hposlt _ (hends p hp).2
    · rw [hc]; exact hposlt _ (hends p hp).1
  · intro i j hi hj r f c
    rw [hcnt i j _ _ (List.getElem?_eq_getElem hi) (List.getElem?_eq_getElem hj),
      hcnt j i _ _ (List.getElem?_eq_getElem hj) (List.getElem?_eq_getElem hi)]
    cases c
    · simp only [if_true, Bool.not_false, Bool.true_eq_false, if_false, Index3.neg_neg]
      apply List.countP_congr
      intro p _
      simp only [decide_eq_true_eq]
      tauto
    · simp only [if_true, Bool.not_true, Bool.true_eq_false, if_false]
      apply List.countP_congr
      intro p _
      simp only [decide_eq_true_eq]
      tauto
  · rintro i h hm ⟨hr, ht⟩
    obtain ⟨a, ha⟩ := hsome i h hm
    obtain ⟨p, hp, hf, hc⟩ := hmem i a ha h hm
    apply inv.noSelf p.2 (htermmem p hp)
    rcases hc with ⟨hc1, hc2, hc3⟩ | ⟨hc1, hc2, hc3⟩
    · refine ⟨hc2 ▸ hr, ?_⟩
      rw [ht] at hc3
      rw [hc1, (hpos i a ha _ (hends p hp).2).1 hc3.symm]
    · refine ⟨?_, ?_⟩
      · rw [hr] at hc2
        rw [← Index3.neg_neg p.2.rel, ← hc2, neg_zero]
      · rw [ht] at hc3
        rw [hc1, (hpos i a ha _ (hends p hp).1).1 hc3.symm]
  · intro i r j
    rcases hi : cell[i]? with _ | a
    · simp [hoppingsAt, hi]
    rcases hj : cell[j]? with _ | b
    · rw [List.countP_eq_zero.2]
      · omega
      · intro h hm hc
        simp only [decide_eq_true_eq] at hc
        obtain ⟨p, hp, -, hc'⟩ := hmem i a hi h hm
        have hjl : ¬ j < cell.length := by
          rw [List.getElem?_eq_none_iff] at hj; omega
        apply hjl
        rw [← hc.2]
        rcases hc' with ⟨-, -, hc'⟩ | ⟨-, -, hc'⟩
        · rw [hc']; exact hposlt _ (hends p hp).2
        · rw [hc']; exact hposlt _ (hends p hp).1
    · rw [(hat i a hi).countP_eq]
      -- each term contributes at most one, and two terms cannot both contribute
      have hone : ∀ ts : List (HoppingFamily K × HoppingTerm),
          (∀ p ∈ ts, p.2.src < l.subs.length ∧ p.2.dst < l.subs.length ∧
            ¬ (p.2.rel = Index3.zero ∧ p.2.src = p.2.dst)) →
          ts.Pairwise (fun p q => p.2.same q.2 = false) →
          (ts.flatMap (Lattice.seen pos a.uniqueId)).countP (fun h => h.rel = r ∧ h.toIdx = j) ≤ 1 := by
        intro ts
        induction ts with
        | nil => simp
        | cons p ts ih =>
          intro hts hpw
          rw [List.pairwise_cons] at hpw
          rw [List.flatMap_cons, List.countP_append]
          have ih' := ih (fun q hq => hts q (List.mem_cons_of_mem _ hq)) hpw.2
          obtain ⟨e1, e2, e3⟩ := hts p List.mem_cons_self
          have hj1 : ∀ q ∈ p :: ts, ∀ h ∈ Lattice.seen pos a.uniqueId q, h.rel = r → h.toIdx = j →
              Lattice.Joins q.2 ⟨Index3.zero, a.uniqueId⟩ ⟨r, b.uniqueId⟩ := by
            intro q hq h hm hr ht
            obtain ⟨f1, f2, -⟩ := hts q hq
            unfold Lattice.seen at hm
            rcases List.mem_append.1 hm with hm | hm
            · split at hm
              · rename_i hsrc
                simp only [List.mem_singleton] at hm
                subst hm
                simp only at hr ht
                left
                refine ⟨?_, hsrc.symm, ?_⟩
                · rw [← hr]; simp [Index3.sub, Index3.zero]
                · exact ((hpos j b hj _ f2).1 ht).symm
              · simp at hm
            · split at hm
              · rename_i hdst
                simp only [List.mem_singleton] at hm
                subst hm
                simp only at hr ht
                right
                refine ⟨?_, ?_, hdst.symm⟩
                · rw [← hr]; simp [Index3.sub, Index3.zero, Index3.neg]
                · exact ((hpos j b hj _ f1).1 ht).symm
              · simp at hm
          have hple : (Lattice.seen pos a.uniqueId p).countP (fun h => h.rel = r ∧ h.toIdx = j) ≤ 1 := by
            unfold Lattice.seen
            by_cases c1 : p.2.src = a.uniqueId <;> by_cases c2 : p.2.dst = a.uniqueId
            · simp only [c1, c2, if_true, List.singleton_append, List.countP_cons, List.countP_nil]
              by_cases c3 : p.2.rel = r
              · have : p.2.rel ≠ Index3.zero := fun h => e3 ⟨h, by rw [c1, c2]⟩
                have : p.2.rel.neg ≠ r := by
                  rw [c3] at this ⊢
                  intro hn
                  apply this
                  obtain ⟨x, y, z⟩ := r
                  simp only [Index3.neg, Index3.mk.injEq] at hn
                  simp only [Index3.zero, Index3.mk.injEq]
                  omega
                simp only [this, false_and, decide_false, Bool.false_eq_true, if_false]
                split <;> omega
              · simp only [c3, false_and, decide_false, Bool.false_eq_true, if_false]
                split <;> omega
            · simp only [c1, c2, if_true, if_false, List.append_nil, List.countP_cons, List.countP_nil]
              split <;> omega
            · simp only [c1, c2, if_true, if_false, List.nil_append, List.countP_cons, List.countP_nil]
              split <;> omega
            · simp [c1, c2]
          rcases Nat.eq_zero_or_pos
            ((Lattice.seen pos a.uniqueId p).countP (fun h => h.rel = r ∧ h.toIdx = j)) with hz | hz
          · omega
          · have : (ts.flatMap (Lattice.seen pos a.uniqueId)).countP
                (fun h => h.rel = r ∧ h.toIdx = j) = 0 := by
              rw [List.countP_eq_zero]
              intro h' hm' hc'
              obtain ⟨h, hm, hc⟩ := List.countP_pos_iff.1 hz
              simp only [decide_eq_true_eq] at hc hc'
              obtain ⟨q, hq, hq'⟩ := List.mem_flatMap.1 hm'
              have j1 := hj1 p List.mem_cons_self h hm hc.1 hc.2
              have j2 := hj1 q (List.mem_cons_of_mem _ hq) h' hq' hc'.1 hc'.2
              have := Lattice.same_of_joins j1 j2
              rw [hpw.1 q hq] at this
              simp at this
            omega
      refine hone _ ?_ ?_
      · intro p hp
        exact ⟨(hends p hp).1, (hends p hp).2, inv.noSelf _ (htermmem p hp)⟩
      · have := inv.distinct
        rw [Lattice.Lattice.terms_eq] at this
        exact List.pairwise_map.1 this
  · -- the orbital count follows the alias id
    have hn : ∀ s ∈ cell, ∃ q, l.subs[s.aliasId]? = some q ∧ s.norb = q.2.energy.cols := by
      intro s hs
      have := h2.mem_iff.1 (List.mem_map.2 ⟨s, hs, rfl⟩)
      obtain ⟨p, hp, hp'⟩ := List.mem_map.1 this
      simp only [Prod.mk.injEq] at hp'
      obtain ⟨-, q', hq', he⟩ := inv.aliases p hp
      rw [hp'.2.2] at hq'
      exact ⟨q', hq', by rw [← hp'.1, he]⟩
    intro a ha b hb hab
    obtain ⟨q, hq, e1⟩ := hn a ha
    obtain ⟨q', hq', e2⟩ := hn b hb
    rw [hab, hq'] at hq
    simp only [Option.some.injEq] at hq
    rw [e1, e2, hq]
  · intro i j a b ha hb r f
    rw [hcnt i j a b ha hb]
    simp

end

end Verif.Foundation
