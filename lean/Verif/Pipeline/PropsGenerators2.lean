import Verif.Pipeline.GeneratorLattice
import Mathlib.NumberTheory.Zsqrtd.GaussianInt

/-!
# C96 for every lattice; what generators do not do
-/

namespace Verif.Pipeline.Generators

open Verif.Lattice (Registry Sublattice HoppingFamily CellSite Inv optimizedUnitCell siteRegistry hoppingRegistry checkOnsite checkHopping)
open Verif.Lattice.Lattice (run empty allTerms)
open Verif.Foundation (Dims CellOK size sites)
open Verif.Symmetry (Periods)
open Verif.Sublat (Table Elem tableNorbs tableLabels)
open Verif.Sublat.Spec (firstRow)
open Verif.Hamiltonian
open Verif.Hopping (COO HoppingBlocks Csr)

variable {C K L P : Type}

/-! ## When generators succeed -/

/-- Specification: each hopping generator returns as many first as second sites. -/
def Balanced (s : System C P) : List (Change C P) → Prop
  | [] => True
  | c :: cs => (match c with
      | .hoppings _ _ mk => (mk (tables s)).1.length = (mk (tables s)).2.length
      | _ => True) ∧ (match step s c with
      | .ok s' => Balanced s' cs
      | _ => True)

/-- **C96** (success).  Generators whose results fit succeed if and only if each hopping generator returns as many first as second sites; otherwise an
error is reported. -/
theorem C96_succeeds [Zero C] {s : System C P} {D : Desc C P} (h : Ready s D) (cs : List (Change C P)) (hp : Pending s cs)
    (hacc : D.AcceptsAll ((outputs s cs).map Output.normal)) :
    (Balanced s cs → ∃ s', cs.foldlM Generators.step s = .ok s') ∧ (¬ Balanced s cs → cs.foldlM Generators.step s = .err .runtimeError) := by
  induction cs generalizing s D with
  | nil => exact ⟨fun _ => ⟨s, rfl⟩, fun hn => absurd trivial hn⟩
  | cons c cs ih =>
    have hcase : (∃ s1, Generators.step s c = .ok s1 ∧ (Balanced s (c :: cs) ↔ Balanced s1 cs)) ∨
        (Generators.step s c = .err .runtimeError ∧ ¬ Balanced s (c :: cs)) := by
      have hout : outputs s (c :: cs) = output s c :: (match Generators.step s c with
          | .ok s' => outputs s' cs
          | _ => []) := rfl
      rw [hout, List.map_cons] at hacc
      obtain ⟨g1, -⟩ := hacc
      have hreg := hp.1 c List.mem_cons_self
      cases c with
      | sites name energy mk =>
        obtain ⟨s1, e1, -⟩ := h.step_sites hreg g1
        exact .inl ⟨s1, e1, by simp only [Balanced, e1, true_and]⟩
      | hoppings name energy mk =>
        obtain ⟨f1, f2⟩ := h.step_hoppings hreg g1
        by_cases hl : (mk (tables s)).1.length = (mk (tables s)).2.length
        · obtain ⟨s1, id, e1, -⟩ := f2 hl
          exact .inl ⟨s1, e1, by simp only [Balanced, e1, hl, true_and]⟩
        · refine .inr ⟨f1.2 hl, ?_⟩
          simp only [Balanced, hl, false_and, not_false_eq_true]
      | positions f =>
        obtain ⟨s1, e1, -⟩ := h.step_positions f
        exact .inl ⟨s1, e1, by simp only [Balanced, e1, true_and]⟩
    rcases hcase with ⟨s1, hs, hbal⟩ | ⟨hs, hbal⟩
    · have hout : outputs s (c :: cs) = output s c :: outputs s1 cs := by
        show output s c :: _ = _
        rw [hs]
      rw [hout, List.map_cons] at hacc
      obtain ⟨g1, g2⟩ := hacc
      obtain ⟨e1, e2, e3, e4, e5⟩ := h.step c (hp.1 c List.mem_cons_self) g1 hs
      have hp' : Pending s1 cs := pending_tail hp e2 e3 e5
      rw [List.foldlM_cons, hs, Res.bind_ok, hbal]
      exact ih e1 hp' g2
    · refine ⟨fun hb => absurd hb hbal, fun _ => ?_⟩
      rw [List.foldlM_cons, hs]
      rfl

/-! ## Lattices -/

theorem step_registries {s s' : System C P} {c : Change C P} (h : Generators.step s c = .ok s') :
    s'.siteRegistry = s.siteRegistry ∧ s'.hoppingRegistry = s.hoppingRegistry := by
  unfold Generators.step at h
  rcases hm : modifier s c with m | _ | _
  · rw [hm, Res.bind_ok] at h
    rcases ht : Hopping.applyModifier m (tables s) with t | _ | _
    · rw [ht, Res.bind_ok, Res.pure_eq, Res.ok.injEq] at h
      subst h
      exact ⟨rfl, rfl⟩
    · rw [ht] at h; cases h
    · rw [ht] at h; cases h
  · rw [hm] at h; cases h
  · rw [hm] at h; cases h

/-- The onsite energy of a site generator is registered under its name. -/
def SiteRegistered (s : System C P) : Change C P → Prop
  | .sites name energy _ => ∃ id, s.siteRegistry.id name = .ok id ∧ s.siteRegistry.energy id = .ok energy
  | _ => True

theorem registered_site {s : System C P} {c : Change C P} (h : Registered s c) : SiteRegistered s c := by
  cases c with
  | sites => obtain ⟨id, h1, h2, -⟩ := h; exact ⟨id, h1, h2⟩
  | hoppings => trivial
  | positions => trivial

theorem step_sizes {s s' : System C P} {c : Change C P} (hc : SiteRegistered s c) (h : Generators.step s c = .ok s') (hz : SizesOK s) : SizesOK s' := by
  obtain ⟨hr, -⟩ := step_registries h
  have key : ∀ e ∈ s'.sublattices, (∃ e' ∈ s.sublattices, e.id = e'.id ∧ e.numOrb = e'.numOrb) ∨
      ∃ m, energyAt s.siteRegistry e.id = .ok m ∧ m.rows = e.numOrb := by
    cases c with
    | sites name energy mk =>
      obtain ⟨id, h1, h2⟩ := hc
      simp only [Generators.step, modifier, h1, Res.bind_ok, Res.pure_eq, Hopping.applyModifier, tables, Hopping.removeInvalid, List.length_nil, if_true,
        Res.ok.injEq] at h
      subst h
      intro e he
      rcases mem_add he with h3 | ⟨h3, h4⟩
      · exact .inl h3
      · refine .inr ⟨energy, ?_, h4.symm⟩
        rw [h3]
        unfold energyAt
        rw [if_neg (by omega), Int.toNat_natCast, h2]
    | hoppings name energy mk =>
      intro e he
      rcases hid : s.hoppingRegistry.id name with id | _ | _
      · simp only [Generators.step, modifier, hid, Res.bind_ok, Res.pure_eq, Hopping.applyModifier, tables, Hopping.removeInvalid, List.length_nil, if_true] at h
        split at h
        · simp only [Res.bind_ok, Res.ok.injEq] at h
          subst h
          exact .inl ⟨e, he, rfl, rfl⟩
        · cases h
        · cases h
      · simp only [Generators.step, modifier, hid] at h; cases h
      · simp only [Generators.step, modifier, hid] at h; cases h
    | positions f =>
      intro e he
      unfold Generators.step modifier Hopping.applyModifier at h
      simp only [Res.bind_ok, Res.pure_eq, Res.ok.injEq, tables] at h
      subst h
      exact .inl ⟨e, he, rfl, rfl⟩
  intro e he m hm
  rw [hr] at hm
  rcases key e he with ⟨e', h1, h2, h3⟩ | ⟨m', h1, h2⟩
  · rw [h2] at hm
    rw [h3]
    exact hz e' h1 m hm
  · rw [h1, Res.ok.injEq] at hm
    rw [← hm]; exact h2

theorem run_sizes {s s' : System C P} (cs : List (Change C P)) (hc : ∀ c ∈ cs, SiteRegistered s c) (h : cs.foldlM Generators.step s = .ok s') (hz : SizesOK s) :
    s'.siteRegistry = s.siteRegistry ∧ SizesOK s' := by
  induction cs generalizing s with
  | nil =>
    rw [List.foldlM_nil, Res.pure_eq, Res.ok.injEq] at h
    subst h
    exact ⟨rfl, hz⟩
  | cons c cs ih =>
    rw [List.foldlM_cons] at h
    rcases hs : Generators.step s c with s1 | _ | _
    · rw [hs, Res.bind_ok] at h
      obtain ⟨e1, -⟩ := step_registries hs
      obtain ⟨f1, f2⟩ := ih (s := s1) (fun c' hc' => by
        have := hc c' (List.mem_cons_of_mem _ hc')
        cases c' with
        | sites => unfold SiteRegistered at *; rw [e1]; exact this
        | hoppings => trivial
        | positions => trivial) h (step_sizes (hc c List.mem_cons_self) hs hz)
      exact ⟨f1.trans e1, f2⟩
    · rw [hs] at h; cases h
    · rw [hs] at h; cases h

theorem added_herm [Zero C] [Star C] {checkSite checkHop : Mat C → Res Unit} (cs : List (Change C P)) (sr hr : Registry C) (r : Registry C × Registry C)
    (h : addChanges checkSite checkHop cs (sr, hr) = .ok r) (h0 : ∀ m ∈ sr.energies, HermMat m)
    (hc : ∀ name energy mk, Change.sites name energy mk ∈ cs → HermMat energy) : ∀ m ∈ r.1.energies, HermMat m := by
  induction cs generalizing sr hr with
  | nil =>
    unfold addChanges at h
    rw [List.foldlM_nil, Res.pure_eq, Res.ok.injEq] at h
    subst h
    exact h0
  | cons c cs ih =>
    have hc' : ∀ name energy mk, Change.sites name energy mk ∈ cs → HermMat energy := fun n e mk hm => hc n e mk (List.mem_cons_of_mem _ hm)
    unfold addChanges at h
    rw [List.foldlM_cons] at h
    cases c with
    | sites name energy mk =>
      rcases hreg : sr.registerFamily checkSite name energy with ⟨sr', _ | _ | _⟩
      · simp only [addChange, hreg] at h
        obtain ⟨-, -, h3⟩ := register_ok hreg
        refine ih sr' hr h ?_ hc'
        rw [h3]
        intro m hm
        rcases List.mem_append.1 hm with hm | hm
        · exact h0 m hm
        · rw [List.mem_singleton] at hm
          subst hm
          exact hc _ _ _ List.mem_cons_self
      · simp only [addChange, hreg] at h; cases h
      · simp only [addChange, hreg] at h; cases h
    | hoppings name energy mk =>
      rcases hreg : hr.registerFamily checkHop name energy with ⟨hr', _ | _ | _⟩
      · simp only [addChange, hreg] at h
        exact ih sr hr' h h0 hc'
      · simp only [addChange, hreg] at h; cases h
      · simp only [addChange, hreg] at h; cases h
    | positions f => exact ih sr hr h h0 hc'

section
variable [AddMonoid C] [StarAddMonoid C] [DecidableEq C] [NonUnitalNonAssocSemiring K] [StarAddMonoid K] [DecidableEq K] [Sub P] [Inhabited P]
  (ops : List (Lattice.Lattice.Op C L)) (subs : List (String × Sublattice C L)) (hops : List (String × HoppingFamily C))
  (hs : subs.Perm (run ops empty).subs) (hh : hops.Perm (run ops empty).hops)
  (ha : AliasesOK (run ops empty)) (d : Dims) (p : Periods) (valid : List Bool)
  (hl : valid.length = (sites d subs.length).length) (hf : enabled p = true → Symmetry.Fits d p)
  (pos : Nat → P) (junk : P) (shiftOf : Index3 → P) (s s' : System C P)
  (hsys : makeSystem subs hops d p valid pos junk shiftOf = .ok s) (cs : List (Change C P))
  (hsys' : makeSystemWith checkOnsite checkHopping cs subs hops d p valid pos junk shiftOf = .ok s')
include hs hh ha hl hf hsys hsys'

/-- **C96** for a lattice.  For every lattice built through the API, every shape, periods, element-wise modifiers and every list of generators: if what
the functions of the user return fits, the Hamiltonian with the generators is the Hamiltonian `m` of the same model without them (which C50 describes),
with the onsite energies of exactly the new sites and the energies of exactly the new bonds added to it. -/
theorem C96_lattice (cast : C → K) (hc0 : cast 0 = 0) (mods : Modifiers K P) (gs : List (ElemFn K P)) (gos : List (OnsiteFn K P)) (maxBuffer : Nat)
    (phase : P → K) (hch : ∀ r c, Chain r c mods.hopping gs) (hon : ∀ n, OnsiteChain n mods.onsite gos) (simple : Bool) :
    ∃ r : Registry C × Registry C, addChanges checkOnsite checkHopping cs (s.siteRegistry, s.hoppingRegistry) = .ok r ∧
      ∀ outs, outs = (outputs (pad r.1 r.2 (hopNames cs).length s) cs).map Output.normal →
        (describe s).AcceptsAll outs → (∀ o ∈ outs, o.still) → (∀ m ∈ r.2.energies, m.size ≤ maxBuffer) →
        ∃ m m' D', make cast s mods maxBuffer phase simple = .ok m ∧ make cast s' mods maxBuffer phase false = .ok m' ∧
          D' = outs.foldl Desc.add (describe s) ∧ D'.sites = (describe s).sites ++ newSites outs ∧ (describe s).sites.map (·.pos) = s.positions ∧
          (describe s).orbitals = tableNorbs s.sublattices ∧ D'.orbitals = tableNorbs s'.sublattices ∧ s'.positions = D'.sites.map (·.pos) ∧
          Sorted D'.orbitals.sum m' ∧
          ∀ a b i j, i < D'.orbitals.getD a 0 → j < D'.orbitals.getD b 0 →
            coeff m' (firstRow D'.orbitals a + i) (firstRow D'.orbitals b + j)
              = (if a < s.positions.length ∧ b < s.positions.length then
                    coeff m (firstRow (tableNorbs s.sublattices) a + i) (firstRow (tableNorbs s.sublattices) b + j)
                  else if a = b then D'.onsite cast gos a i j else 0)
                + (bondSum cast gs D' (newBonds outs) a b i j + star (bondSum cast gs D' (newBonds outs) b a j i)) := by
  obtain ⟨hR, hr1, hcnt, hst⟩ := start ops subs hops hs hh ha d p valid hl hf pos junk shiftOf s hsys cs
  rw [hst] at hsys'
  rcases hadd : addChanges checkOnsite checkHopping cs (s.siteRegistry, s.hoppingRegistry) with r | e | _
  swap
  · rw [hadd] at hsys'; cases hsys'
  swap
  · rw [hadd] at hsys'; cases hsys'
  rw [hadd, Res.bind_ok] at hsys'
  refine ⟨r, rfl, ?_⟩
  intro outs houts hacc hstill hbuf
  obtain ⟨hpend, hready⟩ := pending ops subs hops hs hh ha d p valid hl hf pos junk shiftOf s hsys cs r hadd
  subst houts
  have hrun : cs.foldlM Generators.step (pad r.1 r.2 (hopNames cs).length s) = .ok s' := by
    rcases hfold : cs.foldlM Generators.step (pad r.1 r.2 (hopNames cs).length s) with s1 | _ | _
    · rw [hfold, Res.bind_ok] at hsys'
      split at hsys'
      · cases hsys'
      · exact hsys'
    · rw [hfold] at hsys'; cases hsys'
    · rw [hfold] at hsys'; cases hsys'
  obtain ⟨m, m', D', k1, k2, k3, k4, k5, k6, k7, k8, k9⟩ := C96_extends cast hc0 mods gs gos maxBuffer phase hch hon hready cs hpend hacc hrun hstill hbuf
  have hA := addChanges_spec checkOnsite checkHopping cs _ _ hr1 hR.hopReg r hadd
  have hbuf0 : ∀ m ∈ s.hoppingRegistry.energies, m.size ≤ maxBuffer := by
    intro m hm
    apply hbuf
    rw [hA.hop]
    exact List.mem_append_left _ hm
  obtain ⟨m0, n1, n2, n3⟩ := hR.matrix cast hc0 mods gs gos maxBuffer phase hch hon hbuf0
  obtain ⟨m1, n4, n5, n6⟩ := hready.matrix cast hc0 mods gs gos maxBuffer phase hch hon hbuf
  rw [k1, Res.ok.injEq] at n4
  subst n4
  have hpaths := C22_lattice ops subs hops hs hh ha d p valid hl hf pos junk shiftOf s hsys cast mods maxBuffer phase
  have hm0 : make cast s mods maxBuffer phase simple = .ok m0 := by
    cases simple with
    | true => rw [hpaths]; exact n1
    | false => exact n1
  have hlen : (describe s).sites.length = s.positions.length := by rw [hR.positions, List.length_map]
  refine ⟨m0, m', D', hm0, k2, k3, k4, hR.positions.symm, hR.norbs.symm, k6.symm, k7, k8, ?_⟩
  intro a b i j hi hj
  rw [k9 a b i j hi hj, hlen]
  by_cases hab : a < s.positions.length ∧ b < s.positions.length
  · rw [if_pos hab, if_pos hab]
    have horb : D'.orbitals = (describe s).orbitals ++ (newSites ((outputs (pad r.1 r.2 (hopNames cs).length s) cs).map Output.normal)).map (·.energy.rows) := by
      unfold Desc.orbitals; rw [k4, List.map_append]
    have hla : ∀ x, x < s.positions.length → D'.orbitals.getD x 0 = (describe s).orbitals.getD x 0 := by
      intro x hx
      rw [horb, List.getD_eq_getElem?_getD, List.getElem?_append_left (by rw [Desc.orbitals, List.length_map, hlen]; exact hx), ← List.getD_eq_getElem?_getD]
    have hi' : i < (describe s).orbitals.getD a 0 := by rw [← hla a hab.1]; exact hi
    have hj' : j < (describe s).orbitals.getD b 0 := by rw [← hla b hab.2]; exact hj
    rw [n6 a b i j hi' hj', hR.norbs, n3 a b i j hi' hj']
    congr 2
    rw [hA.hop]
    exact boundarySum_pad cast gs phase hR r.1 _ _ _ a b i j
  · rw [if_neg hab, if_neg hab]

/-- **C96** (Hermitian).  Whatever the functions of the user return: if the onsite energies of the site generators are Hermitian (the check when they are
added also accepts upper triangular ones, see `C96_upper_witness`), the Hamiltonian is Hermitian whenever it can be built. -/
theorem C96_hermitian_partial (cast : C → K) (hcast : ∀ z, cast (star z) = star (cast z)) (mods : Modifiers K P) (maxBuffer : Nat) (phase : P → K)
    (hmods : ∀ f ∈ mods.onsite, KeepsHermitian f) (henergy : ∀ name energy mk, Change.sites name energy mk ∈ cs → HermMat energy)
    (m : Csr K) (hm : make cast s' mods maxBuffer phase false = .ok m) : IsHermitian m := by
  obtain ⟨hR, hr1, hcnt, hst⟩ := start ops subs hops hs hh ha d p valid hl hf pos junk shiftOf s hsys cs
  rw [hst] at hsys'
  rcases hadd : addChanges checkOnsite checkHopping cs (s.siteRegistry, s.hoppingRegistry) with r | e | _
  swap
  · rw [hadd] at hsys'; cases hsys'
  swap
  · rw [hadd] at hsys'; cases hsys'
  rw [hadd, Res.bind_ok] at hsys'
  obtain ⟨hpend, hready⟩ := pending ops subs hops hs hh ha d p valid hl hf pos junk shiftOf s hsys cs r hadd
  have hrun : cs.foldlM Generators.step (pad r.1 r.2 (hopNames cs).length s) = .ok s' := by
    rcases hfold : cs.foldlM Generators.step (pad r.1 r.2 (hopNames cs).length s) with s1 | _ | _
    · rw [hfold, Res.bind_ok] at hsys'
      split at hsys'
      · cases hsys'
      · exact hsys'
    · rw [hfold] at hsys'; cases hsys'
    · rw [hfold] at hsys'; cases hsys'
  have hreg0 : ∀ m ∈ s.siteRegistry.energies, HermMat m := by
    obtain ⟨sr, hr, cell, bs, -, hP, -, -, hseq, -⟩ := system_cases ops subs hops hs hh ha d p valid hl hf pos junk shiftOf s hsys
    rw [hseq]
    exact hP.herm
  have hregs : ∀ m ∈ r.1.energies, HermMat m := added_herm cs _ _ r hadd hreg0 henergy
  obtain ⟨e1, e2⟩ := run_sizes cs (fun c hc => registered_site (hpend.1 c hc)) hrun (fun e he m hm => by
    obtain ⟨m', n, g1, -, g2, -⟩ := hready.table e he
    rw [g1, Res.ok.injEq] at hm
    rw [← hm]; exact g2)
  exact (C21_hermitian cast hcast s' mods maxBuffer phase false hmods (by rw [e1]; exact hregs) e2 m hm).1

end

/-! ## What is returned and what is stored -/

/-- **C96** (order of the pairs).  A hopping generator which returns each pair once, smaller index first, gets exactly the bonds it returns. -/
theorem C96_ordered (name : String) (energy : Mat C) (pairs : List (Nat × Nat)) (hn : pairs.Nodup) (ho : ∀ q ∈ pairs, q.1 ≤ q.2) :
    (Output.hoppings name energy pairs : Output C P).normal = .hoppings name energy pairs := by
  unfold Output.normal
  have : pairs.map (fun q => (min q.1 q.2, max q.1 q.2)) = pairs := by
    conv_rhs => rw [← List.map_id pairs]
    apply List.map_congr_left
    intro q hq
    have := ho q hq
    simp [this]
  simp only [this]
  rw [List.Nodup.dedup hn]

/-- **C96** (reversed pairs).  A pair whose first index is larger gets, from its first to its second site, the conjugate transpose of the energy of the
generator instead of the energy itself. -/
theorem C96_reversed [Zero C] [NonUnitalNonAssocSemiring K] [StarAddMonoid K] [Inhabited P] (cast : C → K) (name : String) (energy : Mat C) (D : Desc C P)
    (a b : Nat) (hab : b < a) (i j : Nat) :
    bondSum cast [] D (newBonds [(Output.hoppings name energy [(a, b)] : Output C P).normal]) a b i j
      + star (bondSum cast [] D (newBonds [(Output.hoppings name energy [(a, b)] : Output C P).normal]) b a j i) = star (cast (entry energy j i)) := by
  have hne : ¬ (b = a) := by omega
  have h1 : newBonds [(Output.hoppings name energy [(a, b)] : Output C P).normal] = [⟨b, a, name, energy⟩] := by
    simp [newBonds, Output.normal, Nat.min_eq_right hab.le, Nat.max_eq_left hab.le]
  rw [h1]
  simp [bondSum, hne, Bond.value, finalEnergy]

/-- **C96** (equal ends).  A pair of equal indices adds the energy and its conjugate transpose to the onsite energy. -/
theorem C96_self [Zero C] [NonUnitalNonAssocSemiring K] [StarAddMonoid K] [Inhabited P] (cast : C → K) (name : String) (energy : Mat C) (D : Desc C P)
    (a : Nat) (i j : Nat) :
    bondSum cast [] D (newBonds [(Output.hoppings name energy [(a, a)] : Output C P).normal]) a a i j
      + star (bondSum cast [] D (newBonds [(Output.hoppings name energy [(a, a)] : Output C P).normal]) a a j i)
      = cast (entry energy i j) + star (cast (entry energy j i)) := by
  simp [newBonds, Output.normal, bondSum, Bond.value, finalEnergy]

/-! ## Examples -/

/-- One sublattice with one orbital. -/
def single : List (Lattice.Lattice.Op GaussianInt Unit) := [.addSublattice "A" () (Mat.scalar 5)]

/-- One sublattice with two orbitals. -/
def double : List (Lattice.Lattice.Op GaussianInt Unit) := [.addSublattice "A" () ⟨2, 2, fun i j => if i = j then 5 else 0⟩]

/-- Two sublattices with one and two orbitals, and a hopping. -/
def both : List (Lattice.Lattice.Op GaussianInt Unit) :=
  [.addSublattice "A" () (Mat.scalar 5), .addSublattice "B" () ⟨2, 2, fun i j => if i = j then 6 else 0⟩,
   .registerHoppingEnergy "t" ⟨1, 2, fun _ j => ⟨1, j.val⟩⟩, .addHopping ⟨1, 0, 0⟩ "A" "B" "t"]

/-- The system of two cells. -/
def systemOf (ops : List (Lattice.Lattice.Op GaussianInt Unit)) (valid : List Bool) : Res (System GaussianInt Int) :=
  makeSystem (run ops empty).subs (run ops empty).hops ⟨2, 1, 1⟩ ⟨none, none, none⟩ valid (fun k => (k : Int)) 0 (fun _ => 0)

/-- The system of two cells with generators. -/
def systemWith (ops : List (Lattice.Lattice.Op GaussianInt Unit)) (valid : List Bool) (cs : List (Change GaussianInt Int)) : Res (System GaussianInt Int) :=
  makeSystemWith checkOnsite checkHopping cs (run ops empty).subs (run ops empty).hops ⟨2, 1, 1⟩ ⟨none, none, none⟩ valid (fun k => (k : Int)) 0 (fun _ => 0)

/-- The Hamiltonian of two cells with generators, without modifiers. -/
def matrixWith (ops : List (Lattice.Lattice.Op GaussianInt Unit)) (valid : List Bool) (cs : List (Change GaussianInt Int)) : Res (Csr GaussianInt) := do
  let s ← systemWith ops valid cs
  make id s ⟨[], []⟩ 100 (fun _ => 1) false

/-- **C96** (witness).  A generator returns the pair from site 1 to site 0 with the energy `i`: the element from 1 to 0 is `-i`. -/
theorem C96_reversed_witness : matrixWith single [true, true] [.hoppings "t" (Mat.scalar ⟨0, 1⟩) fun _ => ([1], [0])]
    = .ok [[(0, 5), (1, ⟨0, 1⟩)], [(0, ⟨0, -1⟩), (1, 5)]] := by decide +kernel

/-- **C96** (witness).  A generator returns a pair from a site with two orbitals to one with one orbital, with an energy with two rows and one column:
a negative index is passed to the matrix, undefined behaviour. -/
theorem C96_rectangular_witness : matrixWith both [true, true, true, true] [.hoppings "u" ⟨2, 1, fun _ _ => 1⟩ fun _ => ([2], [0])] = .ub := by decide +kernel

/-- **C96** (witness).  A pair of equal indices adds twice the energy. -/
theorem C96_self_witness : matrixWith single [true, true] [.hoppings "t" (Mat.scalar 1) fun _ => ([0], [0])] = .ok [[(0, 7)], [(1, 5)]] := by decide +kernel

/-- **C96** (witness).  A site generator with an upper triangular onsite energy is accepted like a sublattice of the lattice with such an energy; there the
energy is made Hermitian, here it is not: the Hamiltonian is not Hermitian. -/
theorem C96_upper_witness : matrixWith single [true, false] [.sites "B" ⟨2, 2, fun i j => if i.val < j.val then 1 else 0⟩ fun _ => [7]]
    = .ok [[(0, 5)], [(2, 1)], []] := by decide +kernel

/-- **C96** (witness).  A site generator with fewer orbitals than the lattice: the new sites are in rows 4 and 5, the hopping between them gets to rows 2 and
3, between the two orbitals of an existing site. -/
theorem C96_orbitals_witness : matrixWith double [true, true] [.sites "B" (Mat.scalar 9) (fun _ => [7, 8]), .hoppings "u" (Mat.scalar 4) fun _ => ([2], [3])]
    = .ok [[(0, 5)], [(1, 5)], [(2, 5), (3, 4)], [(2, 4), (3, 5)], [(4, 9)], [(5, 9)]] := by decide +kernel

instance [Zero C] (D : Desc C P) (o : Output C P) : Decidable (D.Accepts o) := by
  cases o <;> unfold Desc.Accepts <;> infer_instance

instance acceptsAllDecidable [Zero C] : (D : Desc C P) → (os : List (Output C P)) → Decidable (D.AcceptsAll os)
  | _, [] => .isTrue trivial
  | D, o :: os =>
    have := acceptsAllDecidable (D.add o) os
    decidable_of_iff (D.Accepts o ∧ (D.add o).AcceptsAll os) Iff.rfl

instance (o : Output C P) : Decidable o.still := by
  cases o <;> unfold Output.still <;> infer_instance

/-- A site generator, a hopping generator between old and new sites, and one between the new sites. -/
def changes : List (Change GaussianInt Int) :=
  [.sites "C" ⟨2, 2, fun i j => if i = j then 9 else ⟨0, i.val - j.val⟩⟩ (fun t => t.positions.map (· + 10) |>.take 2),
   .hoppings "u" ⟨1, 2, fun _ j => 10 + j.val⟩ (fun t => ([0, 1], [t.positions.length - 1, 2])),
   .hoppings "v" ⟨2, 2, fun i j => ⟨i.val, j.val⟩⟩ (fun _ => ([4, 4], [5, 5]))]

/-- The hypotheses of C96 hold for the lattice with two sublattices and these generators. -/
example : ∃ s s' r m', systemOf both [true, true, true, true] = .ok s ∧ systemWith both [true, true, true, true] changes = .ok s' ∧
    addChanges checkOnsite checkHopping changes (s.siteRegistry, s.hoppingRegistry) = .ok r ∧
    (describe s).AcceptsAll ((outputs (pad r.1 r.2 (hopNames changes).length s) changes).map Output.normal) ∧
    (∀ o ∈ (outputs (pad r.1 r.2 (hopNames changes).length s) changes).map Output.normal, o.still) ∧
    Balanced (pad r.1 r.2 (hopNames changes).length s) changes ∧
    (∀ m ∈ r.2.energies, m.size ≤ 100) ∧ AliasesOK (run both empty) ∧
    matrixWith both [true, true, true, true] changes = .ok m' ∧ coeff m' 0 9 = 11 ∧ coeff m' 9 6 = star (⟨0, 1⟩ : GaussianInt) := by
  have hal : AliasesOK (run both empty) := by
    have : ∀ p ∈ (run both empty).subs, p.2.aliasId = p.2.uniqueId := by decide
    exact ⟨fun i j p q hp _ hne => absurd (this p (List.mem_of_getElem? hp)) hne, fun p _ q hq => this q (List.mem_of_getElem? hq)⟩
  have h : (match systemOf both [true, true, true, true] with
    | .ok s => match systemWith both [true, true, true, true] changes with
      | .ok s' => match addChanges checkOnsite checkHopping changes (s.siteRegistry, s.hoppingRegistry) with
        | .ok r => match matrixWith both [true, true, true, true] changes with
          | .ok m' => decide ((describe s).AcceptsAll ((outputs (pad r.1 r.2 (hopNames changes).length s) changes).map Output.normal)) &&
            decide (∀ o ∈ (outputs (pad r.1 r.2 (hopNames changes).length s) changes).map Output.normal, o.still) &&
            decide (∀ m ∈ r.2.energies, m.size ≤ 100) && decide (s'.positions.length = 6) &&
            decide (coeff m' 0 9 = 11 ∧ coeff m' 9 6 = star (⟨0, 1⟩ : GaussianInt))
          | _ => false
        | _ => false
      | _ => false
    | _ => false) = true := by decide +kernel
  split at h
  · rename_i s hs
    split at h
    · rename_i s' hs'
      split at h
      · rename_i r hr
        split at h
        · rename_i m' hm'
          simp only [Bool.and_eq_true, decide_eq_true_eq] at h
          obtain ⟨⟨⟨⟨h1, h2⟩, h3⟩, h4⟩, h5, h6⟩ := h
          refine ⟨s, s', r, m', hs, hs', hr, h1, h2, ?_, h3, hal, hm', h5, h6⟩
          have hfits : enabled (⟨none, none, none⟩ : Periods) = true → Symmetry.Fits ⟨2, 1, 1⟩ ⟨none, none, none⟩ := fun h => by cases h
          obtain ⟨hp, hR⟩ := pending both _ _ (.refl _) (.refl _) hal ⟨2, 1, 1⟩ ⟨none, none, none⟩ [true, true, true, true] rfl hfits (fun k => (k : Int)) 0
            (fun _ => 0) s hs changes r hr
          by_contra hb
          have herr := (C96_succeeds hR changes hp h1).2 hb
          obtain ⟨-, -, -, hst⟩ := start both _ _ (.refl _) (.refl _) hal ⟨2, 1, 1⟩ ⟨none, none, none⟩ [true, true, true, true] rfl hfits (fun k => (k : Int)) 0
            (fun _ => 0) s hs changes
          unfold systemWith at hs'
          rw [hst, hr, Res.bind_ok, herr] at hs'
          cases hs'
        · cases h
      · cases h
    · cases h
  · cases h

end Verif.Pipeline.Generators
