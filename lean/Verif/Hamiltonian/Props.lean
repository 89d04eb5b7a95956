import Verif.Hamiltonian.Hermitian
import Mathlib.Algebra.Star.Rat
import Mathlib.Tactic.Ring

/-!
# Properties of the Hamiltonian: C21, C22
-/

namespace Verif.Hamiltonian

open Verif.Sublat (Table It iters)
open Verif.Hopping (COO HoppingBlocks Csr csrInsert overwrite)
open Verif.Lattice (Registry)

variable {C K P : Type}

/-- A matrix of run-time size is Hermitian. -/
def HermMat [Zero C] [Star C] (m : Mat C) : Prop :=
  m.rows = m.cols ∧ ∀ i j, i < m.rows → j < m.rows → entry m i j = star (entry m j i)

/-- Specification: what a user may assume about an onsite modifier that respects Hermiticity: given
Hermitian matrices it leaves Hermitian matrices in the array (or throws). -/
def KeepsHermitian [Zero K] [Star K] (f : OnsiteModifier K P) : Prop :=
  ∀ norb n data pos name out, HermArray norb n data → f data pos name = .ok out →
    HermArray norb n (overwrite data out)

/-- Every sublattice of the system has as many orbitals as its energy has rows. -/
def SizesOK (s : System C P) : Prop :=
  ∀ e ∈ s.sublattices, ∀ m, energyAt s.siteRegistry e.id = .ok m → m.rows = e.numOrb

theorem itersFrom_elem (t : Table) (a b : Nat) : ∀ sub ∈ Sublat.itersFrom a b t, sub.elem ∈ t := by
  induction t generalizing a b with
  | nil => simp [Sublat.itersFrom]
  | cons e t ih =>
    intro sub hsub
    unfold Sublat.itersFrom at hsub
    rcases List.mem_cons.1 hsub with rfl | h
    · exact List.mem_cons_self
    · exact List.mem_cons_of_mem _ (ih _ _ sub h)

theorem iters_elem {t : Table} {sub : It} (h : sub ∈ iters t) : sub.elem ∈ t :=
  itersFrom_elem t 0 0 sub h

theorem energyAt_mem {r : Registry C} {id : Int} {m : Mat C} (h : energyAt r id = .ok m) :
    m ∈ r.energies := by
  unfold energyAt at h
  split at h
  · cases h
  · unfold Registry.energy at h
    split at h
    · cases h
    · rcases hx : r.energies[id.toNat]? with _ | x
      · simp only [hx] at h; cases h
      · simp only [hx, Res.ok.injEq] at h
        subst h
        exact List.mem_of_getElem? hx

theorem runOnsite_herm [Zero K] [Star K] (norb n : Nat) (pos : List P) (name : String)
    (mods : List (OnsiteModifier K P)) (hm : ∀ f ∈ mods, KeepsHermitian f) (data out : List K)
    (h : HermArray norb n data) (he : runOnsite pos name mods data = .ok out) : HermArray norb n out := by
  induction mods generalizing data with
  | nil => cases he; exact h
  | cons f fs ih =>
    unfold runOnsite at he
    rcases hf : f data pos name with o | _ | _
    · rw [hf] at he
      exact ih (fun g hg => hm g (List.mem_cons_of_mem _ hg)) _
        (hm f List.mem_cons_self norb n data pos name o h hf) he
    · rw [hf] at he; cases he
    · rw [hf] at he; cases he

theorem zeros_herm [AddMonoid K] [StarAddMonoid K] (norb n : Nat) :
    HermArray norb n (List.replicate (n * norb * norb) (0 : K)) := by
  refine ⟨by simp [Nat.mul_assoc], ?_⟩
  intro i j k _ _ _
  rw [List.getD_eq_getElem?_getD, List.getD_eq_getElem?_getD, List.getElem?_replicate,
    List.getElem?_replicate]
  split <;> split <;> simp

theorem onsiteData_herm [AddMonoid C] [StarAddMonoid C] [AddMonoid K] [StarAddMonoid K] (cast : C → K)
    (hcast : ∀ z, cast (star z) = star (cast z)) (s : System C P)
    (mods : List (OnsiteModifier K P)) (hmods : ∀ f ∈ mods, KeepsHermitian f)
    (hreg : ∀ m ∈ s.siteRegistry.energies, HermMat m) (hsz : SizesOK s) (hi : Bool) (sub : It)
    (hsub : sub ∈ iters s.sublattices) (data : List K)
    (h : onsiteData cast s mods hi sub = .ok data) : HermArray sub.elem.numOrb sub.elem.numSites data := by
  unfold onsiteData at h
  rcases h0 : onsiteIntrinsic cast s.siteRegistry hi sub with d | _ | _
  · have hd : HermArray sub.elem.numOrb sub.elem.numSites d := by
      cases hi with
      | false =>
        simp only [onsiteIntrinsic, Bool.false_eq_true, if_false, Res.ok.injEq] at h0
        subst h0
        exact zeros_herm _ _
      | true =>
        rcases hm : energyAt s.siteRegistry sub.elem.id with m | _ | _
        · have hr := hsz _ (iters_elem hsub) m hm
          have hh := hreg m (energyAt_mem hm)
          have hc : m.cols = sub.elem.numOrb := hh.1 ▸ hr
          rw [onsiteIntrinsic_eq cast _ sub m hm hr hc, Res.ok.injEq] at h0
          subst h0
          refine ⟨by rw [length_layout]; simp, ?_⟩
          intro i j k hi hj hk
          have key : ∀ i j, i < sub.elem.numOrb → j < sub.elem.numOrb →
              (layout sub.elem.numOrb sub.elem.numOrb (List.replicate sub.elem.numSites
                fun i j => cast (entry m i j))).getD
                ((i * sub.elem.numOrb + j) * sub.elem.numSites + k) 0 = cast (entry m i j) := by
            intro i j hi hj
            have := getD_layout sub.elem.numOrb sub.elem.numOrb (List.replicate sub.elem.numSites
                fun i j => cast (entry m i j)) i j k hi hj (by simpa using hk)
            rw [List.length_replicate] at this
            rw [this, List.getD_eq_getElem?_getD, List.getElem?_replicate, if_pos hk]
            rfl
          rw [key i j hi hj, key j i hj hi, hh.2 i j (hr ▸ hi) (hr ▸ hj), hcast]
        · simp only [onsiteIntrinsic, if_true, hm] at h0; cases h0
        · simp only [onsiteIntrinsic, if_true, hm] at h0; cases h0
    rw [h0] at h
    simp only [Res.bind_ok] at h
    split at h
    · cases h; exact hd
    · rcases hp : segment s.positions sub.sysStart sub.elem.numSites with p | _ | _
      · rw [hp] at h
        simp only [Res.bind_ok] at h
        rcases hn : nameAt s.siteRegistry sub.elem.id with nm | _ | _
        · rw [hn] at h
          exact runOnsite_herm _ _ p nm mods hmods d data hd h
        · rw [hn] at h; cases h
        · rw [hn] at h; cases h
      · rw [hp] at h; cases h
      · rw [hp] at h; cases h
  · rw [h0] at h; cases h
  · rw [h0] at h; cases h

theorem onsite_hermitian [AddMonoid C] [StarAddMonoid C] [DecidableEq C] [AddCommMonoid K] [StarAddMonoid K] [DecidableEq K]
    (cast : C → K) (hcast : ∀ z, cast (star z) = star (cast z)) (s : System C P) (mods : Modifiers K P)
    (hmods : ∀ f ∈ mods.onsite, KeepsHermitian f) (hreg : ∀ m ∈ s.siteRegistry.energies, HermMat m)
    (hsz : SizesOK s) (calls : List (Call K)) (h : applyToOnsite cast s mods = .ok calls) (a b : Int) :
    callSum calls a b = star (callSum calls b a) := by
  unfold applyToOnsite at h
  simp only at h
  split at h
  · cases h; simp
  · generalize hasNonzeroEnergy s.siteRegistry = hi at h
    have key : ∀ subs : List It, (∀ x ∈ subs, x ∈ iters s.sublattices) → ∀ calls,
        onsiteLoop cast s mods.onsite hi subs = .ok calls →
        callSum calls a b = star (callSum calls b a) := by
      intro subs
      induction subs with
      | nil => intro _ calls h; cases h; simp
      | cons sub rest ih =>
        intro hs calls h
        unfold onsiteLoop at h
        rcases hd : onsiteData cast s mods.onsite hi sub with d | _ | _
        · rw [hd] at h
          simp only [Res.bind_ok] at h
          rcases hr : onsiteLoop cast s mods.onsite hi rest with c | _ | _
          · rw [hr] at h
            simp only [Res.bind_ok, Res.pure_eq, Res.ok.injEq] at h
            subst h
            rw [callSum_append, callSum_append, star_add,
              ← ih (fun x hx => hs x (List.mem_cons_of_mem _ hx)) c hr,
              ← emit_hermitian sub d (onsiteData_herm cast hcast s mods.onsite hmods hreg hsz hi sub
                (hs _ List.mem_cons_self) d hd)]
          · rw [hr] at h; cases h
          · rw [hr] at h; cases h
        · rw [hd] at h; cases h
        · rw [hd] at h; cases h
    exact key _ (fun x hx => hx) calls h

/-! ## C21 -/

/-- The main block is the sum of the onsite calls and the hopping calls with their conjugates, on
both build paths. -/
theorem buildMain_coeff [Zero C] [DecidableEq C] [AddCommMonoid K] [Star K] [DecidableEq K]
    [Sub P] (cast : C → K) (s : System C P) (mods : Modifiers K P) (maxBuffer : Nat) (simple : Bool)
    (m : Csr K) (h : buildMain cast s mods maxBuffer simple = .ok m) :
    ∃ onsite hop, applyToOnsite cast s mods = .ok onsite ∧
      applyToHoppings cast s mods maxBuffer none s.hoppings = .ok hop ∧
      addAll (Sublat.hamiltonianSize s.sublattices) (onsite ++ withConjugate hop)
        (List.replicate (Sublat.hamiltonianSize s.sublattices) []) = .ok m := by
  unfold buildMain at h
  simp only at h
  cases simple with
  | true =>
    simp only [if_true] at h
    rcases ho : applyToOnsite cast s mods with o | _ | _
    · rw [ho] at h
      simp only [Res.bind_ok] at h
      rcases hi : insertAll (Sublat.hamiltonianSize s.sublattices) o
        (List.replicate (Sublat.hamiltonianSize s.sublattices) []) with m1 | _ | _
      · rw [hi] at h
        simp only [Res.bind_ok] at h
        rcases hh : applyToHoppings cast s mods maxBuffer none s.hoppings with hp | _ | _
        · rw [hh] at h
          refine ⟨o, hp, rfl, rfl, ?_⟩
          rw [addAll_append, insertAll_addAll hi]
          exact insertAll_addAll h
        · rw [hh] at h; cases h
        · rw [hh] at h; cases h
      · rw [hi] at h; cases h
      · rw [hi] at h; cases h
    · rw [ho] at h; cases h
    · rw [ho] at h; cases h
  | false =>
    simp only [Bool.false_eq_true, if_false] at h
    rcases ho : applyToOnsite cast s mods with o | _ | _
    · rw [ho] at h
      simp only [Res.bind_ok] at h
      rcases hh : applyToHoppings cast s mods maxBuffer none s.hoppings with hp | _ | _
      · rw [hh] at h
        exact ⟨o, hp, rfl, rfl, h⟩
      · rw [hh] at h; cases h
      · rw [hh] at h; cases h
    · rw [ho] at h; cases h
    · rw [ho] at h; cases h

theorem buildPeriodic_herm [NonUnitalNonAssocSemiring K] [StarAddMonoid K] [DecidableEq K] [Sub P]
    (cast : C → K) (s : System C P) (mods : Modifiers K P) (maxBuffer : Nat) (phase : P → K)
    (bs : List (Boundary P)) (m m' : Csr K)
    (hm : m.length = Sublat.hamiltonianSize s.sublattices)
    (h : buildPeriodic cast s mods maxBuffer phase bs m = .ok m') :
    (IsHermitian m → IsHermitian m') ∧
    (Sorted (Sublat.hamiltonianSize s.sublattices) m → Sorted (Sublat.hamiltonianSize s.sublattices) m') := by
  induction bs generalizing m with
  | nil => cases h; exact ⟨id, id⟩
  | cons b bs ih =>
    unfold buildPeriodic at h
    rcases hh : applyToHoppings cast s mods maxBuffer (some b.shift) b.hoppings with hop | _ | _
    · rw [hh] at h
      simp only [Res.bind_ok] at h
      rcases ha : addAll (Sublat.hamiltonianSize s.sublattices) (withConjugate (hop.map fun c =>
        (c.1, c.2.1, c.2.2 * phase b.shift))) m with m1 | _ | _
      · rw [ha] at h
        simp only [Res.bind_ok] at h
        obtain ⟨l1, s1, c1⟩ := addAll_ok hm ha
        obtain ⟨i1, i2⟩ := ih m1 l1 h
        refine ⟨fun hm => i1 ?_, fun hm => i2 (s1 hm)⟩
        intro i j
        rw [c1, c1, star_add, ← hm i j, ← withConjugate_hermitian]
      · rw [ha] at h; cases h
      · rw [ha] at h; cases h
    · rw [hh] at h; cases h
    · rw [hh] at h; cases h

/-- **C21**: whenever a Hamiltonian is produced, it is Hermitian: for any hopping energies, any
hopping modifiers, any boundaries, any phases and on both build paths, provided that the registered
onsite energies are Hermitian, the sublattices have the size of their energies, and the onsite
modifiers keep Hermitian matrices Hermitian.  The matrix is square with strictly increasing columns
in every row. -/
theorem C21_hermitian [AddMonoid C] [StarAddMonoid C] [DecidableEq C] [NonUnitalNonAssocSemiring K] [StarAddMonoid K]
    [DecidableEq K] [Sub P] (cast : C → K) (hcast : ∀ z, cast (star z) = star (cast z))
    (s : System C P) (mods : Modifiers K P) (maxBuffer : Nat) (phase : P → K) (simple : Bool)
    (hmods : ∀ f ∈ mods.onsite, KeepsHermitian f) (hreg : ∀ m ∈ s.siteRegistry.energies, HermMat m)
    (hsz : SizesOK s) (m : Csr K) (h : make cast s mods maxBuffer phase simple = .ok m) :
    IsHermitian m ∧ Sorted (Sublat.hamiltonianSize s.sublattices) m := by
  unfold make at h
  rcases hb : buildMain cast s mods maxBuffer simple with m0 | _ | _
  · rw [hb] at h
    simp only [Res.bind_ok] at h
    obtain ⟨o, hop, ho, -, ha⟩ := buildMain_coeff cast s mods maxBuffer simple m0 hb
    obtain ⟨l, so, co⟩ := addAll_ok (by simp) ha
    obtain ⟨p1, p2⟩ := buildPeriodic_herm cast s mods maxBuffer phase s.boundaries m0 m l h
    refine ⟨p1 ?_, p2 (so (sorted_zero _))⟩
    intro i j
    rw [co, co, coeff_zero, coeff_zero, zero_add, zero_add, callSum_append, callSum_append, star_add,
      ← withConjugate_hermitian, ← onsite_hermitian cast hcast s mods hmods hreg hsz o ho]
  · rw [hb] at h; cases h
  · rw [hb] at h; cases h

end Verif.Hamiltonian
