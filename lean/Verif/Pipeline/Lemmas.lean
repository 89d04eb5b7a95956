import Verif.Pipeline.Model
import Verif.Symmetry.Props2
import Verif.Hamiltonian.Props3

/-!
# The system of a lattice meets the hypotheses of the Hamiltonian theorems
-/

namespace Verif.Pipeline

open Verif.Lattice (Sublattice HoppingFamily Registry CellSite CellHopping optimizedUnitCell siteRegistry
  hoppingRegistry Inv)
open Verif.Lattice.Lattice (run empty allTerms)
open Verif.Foundation (Dims populateSystem CellOK cell_of_lattice size locOf rank validPairs cellAt
  crystalSite hoppingsAt)
open Verif.Symmetry (Periods populateBoundaries periodIndex cmul)
open Verif.Sublat (tableNorbs)
open Verif.Hamiltonian (HopOK SitesOK SimpleBonds HermMat SizesOK energyAt nameAt entry)
open Verif.Hopping (COO)

variable {C L P : Type}

/-! ## Registries and unit cell -/

theorem atSet_mem {α : Type} {xs ys : List α} {i : Nat} {v : α} (h : Lattice.atSet xs i v = .ok ys) :
    ∀ y ∈ ys, y ∈ xs ∨ y = v := by
  unfold Lattice.atSet at h
  split at h
  · simp only [Res.ok.injEq] at h
    subst h
    intro y hy
    exact List.mem_or_eq_of_mem_set hy
  · cases h

theorem siteRegistryLoop_mem (subs : List (String × Sublattice C L)) (es : List (Mat C)) (ns : List String)
    {r : Registry C} (h : Lattice.siteRegistryLoop subs es ns = .ok r) :
    ∀ m ∈ r.energies, m ∈ es ∨ ∃ p ∈ subs, m = p.2.energy := by
  induction subs generalizing es ns with
  | nil =>
    simp only [Lattice.siteRegistryLoop, Res.ok.injEq] at h
    subst h
    exact fun m hm => .inl hm
  | cons p rest ih =>
    obtain ⟨n, s⟩ := p
    unfold Lattice.siteRegistryLoop at h
    split at h
    · intro m hm
      rcases ih _ _ h m hm with h1 | ⟨q, h1, h2⟩
      · exact .inl h1
      · exact .inr ⟨q, List.mem_cons_of_mem _ h1, h2⟩
    · rcases e1 : Lattice.atSet es s.uniqueId s.energy with es' | _ | _
      · rw [e1, Res.bind_ok] at h
        rcases e2 : Lattice.atSet ns s.uniqueId n with ns' | _ | _
        · rw [e2, Res.bind_ok] at h
          intro m hm
          rcases ih _ _ h m hm with h1 | ⟨q, h1, h2⟩
          · rcases atSet_mem e1 m h1 with h3 | h3
            · exact .inl h3
            · exact .inr ⟨_, List.mem_cons_self, h3⟩
          · exact .inr ⟨q, List.mem_cons_of_mem _ h1, h2⟩
        · rw [e2] at h; cases h
        · rw [e2] at h; cases h
      · rw [e1] at h; cases h
      · rw [e1] at h; cases h

theorem hermMat_of [Zero C] [Star C] {m : Mat C} (h : Lattice.Hermitian m) : HermMat m := by
  obtain ⟨e, h⟩ := h
  refine ⟨e, ?_⟩
  intro i j hi hj
  unfold entry
  rw [dif_pos ⟨hi, e ▸ hj⟩, dif_pos ⟨hj, e ▸ hi⟩]
  exact h _ _

/-- What a user must respect for aliases to be resolved (C10): aliases are created after all other
sublattices and name one of these. -/
structure AliasesOK (l : Lattice.Lattice C L) : Prop where
  last : ∀ (i j : Nat) p q, l.subs[i]? = some p → l.subs[j]? = some q → p.2.aliasId ≠ p.2.uniqueId →
      q.2.aliasId = q.2.uniqueId → j < i
  root : ∀ p ∈ l.subs, ∀ q, l.subs[p.2.aliasId]? = some q → q.2.aliasId = q.2.uniqueId

/-- The registries and the unit cell of a lattice. -/
structure Parts [Zero C] [Star C] (l : Lattice.Lattice C L) (sr hr : Registry C) (cell : List CellSite) : Prop where
  hopLen : hr.names.length = l.hops.length
  hop : ∀ p ∈ l.hops, hr.name p.2.familyId = .ok p.1 ∧ hr.energy p.2.familyId = .ok p.2.energy
  cellOK : CellOK cell l.hops.length
  cellLen : cell.length = l.subs.length
  cellSub : ∀ c ∈ cell, ∃ p, l.subs[c.uniqueId]? = some p ∧ p.2.energy.cols = c.norb ∧
    p.2.energy.rows = c.norb ∧ 0 < c.norb ∧ p.2.aliasId = c.aliasId
  uid : ∀ (i j : Nat) (a b : CellSite), cell[i]? = some a → cell[j]? = some b → a.uniqueId = b.uniqueId → i = j
  counts : ∀ (i j : Nat) (a b : CellSite), cell[i]? = some a → cell[j]? = some b → ∀ r f,
        (hoppingsAt cell i).count ⟨r, j, f, false⟩ =
          (allTerms l.hops).countP (fun p =>
            p.2.src = a.uniqueId ∧ p.2.rel = r ∧ p.2.dst = b.uniqueId ∧ p.1.familyId = f)
  site : ∀ p ∈ l.subs, ∃ q, l.subs[p.2.aliasId]? = some q ∧ nameAt sr p.2.aliasId = .ok q.1 ∧
    energyAt sr p.2.aliasId = .ok p.2.energy
  herm : ∀ m ∈ sr.energies, HermMat m

theorem parts_of_lattice [DecidableEq C] [Zero C] [InvolutiveStar C] (ops : List (Lattice.Lattice.Op C L))
    (subs : List (String × Sublattice C L)) (hops : List (String × HoppingFamily C))
    (hs : subs.Perm (run ops empty).subs) (hh : hops.Perm (run ops empty).hops)
    (ha : AliasesOK (run ops empty)) :
    ∃ sr hr cell, siteRegistry subs = .ok sr ∧ hoppingRegistry hops = .ok hr ∧
      optimizedUnitCell subs hops = .ok cell ∧ Parts (run ops empty) sr hr cell := by
  obtain ⟨sr, s1, s2⟩ := Lattice.C10_registry_partial ops subs hs ha.last
  obtain ⟨hr, h1, h2, h3⟩ := Lattice.C10_hopping_registry ops hops hh
  obtain ⟨cell, c1, c2, c3, c4, c5⟩ := cell_of_lattice ops subs hops hs hh
  have inv := Inv.reachable (K := C) (P := L) ops
  refine ⟨sr, hr, cell, s1, h1, c1, h2, h3, c2, c3, ?_, ?_, c5, ?_, ?_⟩
  · intro c hc
    have := c4.mem_iff.1 (List.mem_map.2 ⟨c, hc, rfl⟩)
    obtain ⟨p, hp, he⟩ := List.mem_map.1 this
    simp only [Prod.mk.injEq] at he
    obtain ⟨⟨e, -⟩, e2⟩ := inv.onsite p hp
    refine ⟨p, ?_, he.1, e.trans he.1, ?_, he.2.2⟩
    · have := inv.id_lt (n := p.1) (s := p.2) hp
      rw [← he.2.1, this]
    · omega
  · intro i j a b hi hj e
    have hnd : (cell.map (·.uniqueId)).Nodup := by
      have : (cell.map (·.uniqueId)).Perm ((run ops empty).subs.map (·.2.uniqueId)) := by
        have := c4.map (fun x : Nat × Nat × Nat => x.2.1)
        simpa [List.map_map, Function.comp_def] using this
      rw [this.nodup_iff]
      exact inv.nodup_ids
    obtain ⟨hi1, hi2⟩ := List.getElem?_eq_some_iff.1 hi
    obtain ⟨hj1, hj2⟩ := List.getElem?_eq_some_iff.1 hj
    have := (List.nodup_iff_injective_getElem.1 hnd) (a₁ := ⟨i, by simpa using hi1⟩)
      (a₂ := ⟨j, by simpa using hj1⟩) (by simp [hi2, hj2, e])
    simpa using this
  · intro p hp
    obtain ⟨-, q, hq, he⟩ := inv.aliases p hp
    obtain ⟨n1, n2, -⟩ := s2 p hp q hq (ha.root p hp q hq)
    refine ⟨q, hq, ?_, ?_⟩
    · unfold nameAt
      rw [if_neg (by omega)]
      exact n1
    · unfold energyAt
      rw [if_neg (by omega)]
      exact n2
  · intro m hm
    rcases siteRegistryLoop_mem _ _ _ s1 m hm with h | ⟨p, h, rfl⟩
    · rw [List.eq_of_mem_replicate h]
      exact ⟨rfl, fun i j hi _ => absurd hi (by simp)⟩
    · exact hermMat_of (inv.onsite p (hs.mem_iff.1 h)).1

/-! ## The populated system -/

/-- Energy of family `fam`. -/
def famEnergy (l : Lattice.Lattice C L) (fam : Nat) : Mat C :=
  match l.hops[fam]? with
  | some p => p.2.energy
  | none => ⟨0, 0, fun i _ => i.elim0⟩

/-- Name of family `fam`. -/
def famName (l : Lattice.Lattice C L) (fam : Nat) : String :=
  match l.hops[fam]? with
  | some p => p.1
  | none => ""

/-- Registered energy of site `k`. -/
def siteEnergy (s : Hamiltonian.System C P) (k : Nat) : Mat C :=
  match (Sublat.decompressed s.sublattices)[k]? with
  | some (some id) =>
    match energyAt s.siteRegistry id with
    | .ok m => m
    | _ => ⟨0, 0, fun i _ => i.elim0⟩
  | _ => ⟨0, 0, fun i _ => i.elim0⟩

/-- Registered name of site `k`. -/
def siteName (s : Hamiltonian.System C P) (k : Nat) : String :=
  match (Sublat.decompressed s.sublattices)[k]? with
  | some (some id) =>
    match nameAt s.siteRegistry id with
    | .ok m => m
    | _ => ""
  | _ => ""

end Verif.Pipeline
