import Verif.Pipeline.Generators
import Verif.Pipeline.Props2
import Verif.Hopping.Lemmas

/-!
# Lemmas about generators: the description of a system, and how modifiers extend it
-/

namespace Verif.Pipeline.Generators

open Verif.Lattice (Registry)
open Verif.Sublat (Table Elem tableNorbs tableLabels)
open Verif.Hamiltonian
open Verif.Hopping (COO HoppingBlocks Csr)

variable {C K P : Type}

/-! ## Specification -/

/-- A site: its sublattice, the onsite energy of the sublattice, and its position. -/
structure Site (C P : Type) where
  name : String
  energy : Mat C
  pos : P

/-- A bond: its ends, and name and energy of its family. -/
structure Bond (C : Type) where
  src : Nat
  dst : Nat
  name : String
  energy : Mat C

/-- A list of sites and bonds between them; `most` is the largest number of orbitals of the families of sites so far, with or
without sites. -/
structure Desc (C P : Type) where
  sites : List (Site C P)
  bonds : List (Bond C)
  most : Nat

/-- Specification: the description after the user's function returned something: new sites come after the existing ones, new
bonds lead from the first to the second site of each pair, moved sites get their new positions. -/
def Desc.add (D : Desc C P) : Output C P → Desc C P
  | .sites name energy new => ⟨D.sites ++ new.map fun p => ⟨name, energy, p⟩, D.bonds, energy.rows⟩
  | .hoppings name energy pairs => ⟨D.sites, D.bonds ++ pairs.map fun q => ⟨q.1, q.2, name, energy⟩, D.most⟩
  | .positions new => ⟨List.zipWith (fun s p => { s with pos := p }) D.sites new, D.bonds, D.most⟩

/-- Number of orbitals of each site. -/
def Desc.orbitals (D : Desc C P) : List Nat := D.sites.map (·.energy.rows)

/-- Position of a site. -/
def Desc.posAt [Inhabited P] (D : Desc C P) (a : Nat) : P := match D.sites[a]? with | some s => s.pos | none => default

/-- Specification: the onsite energy of a site after the modifiers. -/
def Desc.onsite [Zero C] [Zero K] (cast : C → K) (gos : List (OnsiteFn K P)) (D : Desc C P) (a i j : Nat) : K :=
  match D.sites[a]? with
  | some s => finalOnsite gos s.name (fun i j => cast (entry s.energy i j)) s.pos i j
  | none => 0

/-- Specification: the energy of one bond after the modifiers. -/
def Bond.value [Zero C] (cast : C → K) (gs : List (ElemFn K P)) (x : Bond C) (p q : P) (i j : Nat) : K :=
  finalEnergy gs x.name (fun i j => cast (entry x.energy i j)) p q i j

/-- Specification: the energies of a list of bonds which lead from one site to another. -/
def bondSum [Zero C] [AddMonoid K] [Inhabited P] (cast : C → K) (gs : List (ElemFn K P)) (D : Desc C P) (bonds : List (Bond C))
    (a b i j : Nat) : K :=
  (bonds.map fun x => if x.src = a ∧ x.dst = b then x.value cast gs (D.posAt a) (D.posAt b) i j else 0).sum

/-- A function of the user returned something which fits to the sites: new sites have at least as many orbitals as all
families before; the pairs of a hopping generator are different, lead from a site to itself or a later one, and have the
orbitals of the energy; all sites get positions. -/
def Desc.Accepts (D : Desc C P) : Output C P → Prop
  | .sites _ energy _ => D.most ≤ energy.rows
  | .hoppings _ energy pairs => pairs.Nodup ∧ ∀ q ∈ pairs, q.1 ≤ q.2 ∧
      D.orbitals[q.1]? = some energy.rows ∧ D.orbitals[q.2]? = some energy.cols
  | .positions new => new.length = D.sites.length

/-- Each function's result fits to the sites which there are when it is called. -/
def Desc.AcceptsAll (D : Desc C P) : List (Output C P) → Prop
  | [] => True
  | o :: os => D.Accepts o ∧ (D.add o).AcceptsAll os

/-! ## Systems and their descriptions -/

/-- Registered energy of a family. -/
def regEnergy (r : Registry C) (f : Nat) : Mat C := match r.energies[f]? with | some e => e | none => ⟨0, 0, fun i _ => i.elim0⟩

/-- Registered name of a family. -/
def regName (r : Registry C) (f : Nat) : String := match r.names[f]? with | some e => e | none => ""

/-- The bonds stored in a table of hoppings. -/
def bondsOf (r : Registry C) (blocks : List (List COO)) : List (Bond C) :=
  blocks.zipIdx.flatMap fun p => p.1.map fun c => ⟨c.row, c.col, regName r p.2, regEnergy r p.2⟩

/-- The system consists of the described sites and bonds. -/
structure Ready [Zero C] (s : System C P) (D : Desc C P) : Prop where
  positions : s.positions = D.sites.map (·.pos)
  norbs : tableNorbs s.sublattices = D.orbitals
  square : ∀ x ∈ D.sites, x.energy.cols = x.energy.rows
  labels : ∀ (k : Nat) (id : Int) (x : Site C P), (tableLabels s.sublattices)[k]? = some id → D.sites[k]? = some x →
    energyAt s.siteRegistry id = .ok x.energy ∧ nameAt s.siteRegistry id = .ok x.name
  table : ∀ e ∈ s.sublattices, ∃ m n, energyAt s.siteRegistry e.id = .ok m ∧ nameAt s.siteRegistry e.id = .ok n ∧
    m.rows = e.numOrb ∧ m.cols = e.numOrb
  sorted : (s.sublattices.map (·.numOrb)).Pairwise (· ≤ ·)
  orb : ∀ n ∈ D.orbitals, 0 < n
  top : ∀ e ∈ s.sublattices, e.numOrb ≤ D.most
  hopReg : s.hoppingRegistry.energies.length = s.hoppingRegistry.names.length
  blocks : s.hoppings.blocks.length ≤ s.hoppingRegistry.names.length
  bonds : (bondsOf s.hoppingRegistry s.hoppings.blocks).Perm D.bonds
  fits : ∀ x ∈ D.bonds, D.orbitals[x.src]? = some x.energy.rows ∧ D.orbitals[x.dst]? = some x.energy.cols
  boundaries : ∀ b ∈ s.boundaries, b.hoppings.blocks.length ≤ s.hoppingRegistry.names.length ∧
    ∀ (fam : Nat) bl, b.hoppings.blocks[fam]? = some bl → ∀ c ∈ bl, Fits D.orbitals (regEnergy s.hoppingRegistry fam) c

theorem reg_energy {r : Registry C} (h : r.energies.length = r.names.length) {f : Nat} (hf : f < r.names.length) :
    r.energy f = .ok (regEnergy r f) ∧ r.name f = .ok (regName r f) := by
  unfold Registry.energy Registry.name regEnergy regName
  rw [if_neg (by omega), if_neg (by omega), List.getElem?_eq_getElem (by omega), List.getElem?_eq_getElem (by omega)]
  exact ⟨rfl, rfl⟩

theorem mem_bondsOf {r : Registry C} {blocks : List (List COO)} {fam : Nat} {b : List COO} (hb : blocks[fam]? = some b) {c : COO}
    (hc : c ∈ b) : (⟨c.row, c.col, regName r fam, regEnergy r fam⟩ : Bond C) ∈ bondsOf r blocks := by
  unfold bondsOf
  rw [List.mem_flatMap]
  refine ⟨(b, fam), ?_, List.mem_map.2 ⟨c, hc, rfl⟩⟩
  rw [List.mem_iff_getElem?]
  exact ⟨fam, by rw [List.getElem?_zipIdx, hb]; simp⟩

section
variable [Zero C] {s : System C P} {D : Desc C P}

theorem Ready.hopOK (h : Ready s D) : HopOK s s.hoppings (regEnergy s.hoppingRegistry) (regName s.hoppingRegistry) where
  sorted := h.sorted
  orb := by rw [h.norbs]; exact h.orb
  energy := fun fam hf => (reg_energy h.hopReg (lt_of_lt_of_le hf h.blocks)).1
  name := fun fam hf => (reg_energy h.hopReg (lt_of_lt_of_le hf h.blocks)).2
  fits := by
    intro fam b hb c hc
    have := h.fits _ (h.bonds.mem_iff.1 (mem_bondsOf hb hc))
    rw [h.norbs]
    exact this

theorem Ready.boundaryOK (h : Ready s D) : ∀ b ∈ s.boundaries, HopOK s b.hoppings (regEnergy s.hoppingRegistry) (regName s.hoppingRegistry) := by
  intro b hb
  obtain ⟨h1, h2⟩ := h.boundaries b hb
  exact { sorted := h.sorted
          orb := by rw [h.norbs]; exact h.orb
          energy := fun fam hf => (reg_energy h.hopReg (lt_of_lt_of_le hf h1)).1
          name := fun fam hf => (reg_energy h.hopReg (lt_of_lt_of_le hf h1)).2
          fits := by
            intro fam bl hbl c hc
            rw [h.norbs]
            exact h2 fam bl hbl c hc }

/-- Energy of a site of the description. -/
def Desc.energyOf (D : Desc C P) (k : Nat) : Mat C := match D.sites[k]? with | some x => x.energy | none => ⟨0, 0, fun i _ => i.elim0⟩

/-- Name of a site of the description. -/
def Desc.nameOf (D : Desc C P) (k : Nat) : String := match D.sites[k]? with | some x => x.name | none => ""

theorem Ready.length (h : Ready s D) : (tableNorbs s.sublattices).length = D.sites.length := by
  rw [h.norbs]; simp [Desc.orbitals]

theorem Ready.sitesOK (h : Ready s D) : SitesOK s D.energyOf D.nameOf where
  table := h.table
  energy := by
    intro k id hk
    rw [Sublat.decompressed_eq, List.getElem?_map, Option.map_eq_some_iff] at hk
    obtain ⟨id', h1, h2⟩ := hk
    simp only [Option.some.injEq] at h2
    subst h2
    have hlt : k < D.sites.length := by
      rw [← h.length, Sublat.length_tableNorbs, ← Sublat.length_tableLabels]
      exact (List.getElem?_eq_some_iff.1 h1).1
    have hx := List.getElem?_eq_getElem hlt
    obtain ⟨e1, e2⟩ := h.labels k id' _ h1 hx
    unfold Desc.energyOf Desc.nameOf
    rw [hx]
    exact ⟨e1, e2⟩
  fits := by
    intro k n hk
    rw [h.norbs] at hk
    unfold Desc.orbitals at hk
    rw [List.getElem?_map, Option.map_eq_some_iff] at hk
    obtain ⟨x, h1, rfl⟩ := hk
    unfold Desc.energyOf
    rw [h1]
    exact ⟨rfl, h.square x (List.mem_of_getElem? h1)⟩

end

/-- The sum over the blocks is the sum over the bonds. -/
theorem hopAt_bonds [Zero C] [AddCommMonoid K] [Sub P] [Inhabited P] (cast : C → K) (gs : List (ElemFn K P)) (D : Desc C P) (r : Registry C)
    (blocks : List (List COO)) (a b i j : Nat) :
    hopAt cast D.posAt none gs (regEnergy r) (regName r) blocks a b i j = bondSum cast gs D (bondsOf r blocks) a b i j := by
  unfold hopAt bondSum bondsOf
  generalize blocks.zipIdx = z
  induction z with
  | nil => rfl
  | cons p z ih =>
    rw [List.map_cons, List.sum_cons, ih, List.flatMap_cons, List.map_append, List.sum_append]
    congr 1
    generalize p.1 = bl
    induction bl with
    | nil => simp
    | cons c bl ihb =>
      rw [List.map_cons, List.map_cons, List.sum_cons, ← ihb, List.count_cons]
      rcases c with ⟨c1, c2⟩
      by_cases hc : c1 = a ∧ c2 = b
      · obtain ⟨rfl, rfl⟩ := hc
        simp only [and_self, if_true, beq_self_eq_true, add_smul, one_smul, Bond.value, shiftBy]
        rw [add_comm]
      · have hne : ((⟨c1, c2⟩ : COO) == ⟨a, b⟩) = false := by
          rw [beq_eq_false_iff_ne]
          intro e
          rw [COO.mk.injEq] at e
          exact hc e
        rw [if_neg hc, hne]
        simp

theorem bondSum_perm [Zero C] [AddCommMonoid K] [Inhabited P] (cast : C → K) (gs : List (ElemFn K P)) (D : Desc C P) {xs ys : List (Bond C)}
    (h : xs.Perm ys) (a b i j : Nat) : bondSum cast gs D xs a b i j = bondSum cast gs D ys a b i j := (h.map _).sum_eq

theorem bondSum_append [Zero C] [AddCommMonoid K] [Inhabited P] (cast : C → K) (gs : List (ElemFn K P)) (D : Desc C P) (xs ys : List (Bond C))
    (a b i j : Nat) : bondSum cast gs D (xs ++ ys) a b i j = bondSum cast gs D xs a b i j + bondSum cast gs D ys a b i j := by
  unfold bondSum
  rw [List.map_append, List.sum_append]

/-! ## Steps -/

theorem add_norbs {t : Table} {id : Int} {norb count : Nat} (h : ∀ e ∈ t, e.id = id → e.numOrb = norb) :
    tableNorbs (Sublat.add t id norb count) = tableNorbs t ++ List.replicate count norb := by
  unfold Sublat.add
  split
  · rw [Sublat.tableNorbs_append]; simp
  · rename_i back hb
    split
    · rw [Sublat.tableNorbs_append]; simp
    · rename_i hid
      have hid : back.id = id := by simpa using hid
      have hn := h back (List.mem_of_getLast? hb) hid
      obtain ⟨ys, rfl⟩ := List.getLast?_eq_some_iff.1 hb
      rw [List.dropLast_concat, Sublat.tableNorbs_append, Sublat.tableNorbs_append]
      simp [hn]

theorem add_labels (t : Table) (id : Int) (norb count : Nat) :
    tableLabels (Sublat.add t id norb count) = tableLabels t ++ List.replicate count id := by
  unfold Sublat.add
  split
  · rw [Sublat.tableLabels_append]; simp
  · rename_i back hb
    split
    · rw [Sublat.tableLabels_append]; simp
    · rename_i hid
      have hid : back.id = id := by simpa using hid
      obtain ⟨ys, rfl⟩ := List.getLast?_eq_some_iff.1 hb
      rw [List.dropLast_concat, Sublat.tableLabels_append, Sublat.tableLabels_append]
      simp [hid]

theorem add_sorted {t : Table} {id : Int} {norb count : Nat} (hs : (t.map (·.numOrb)).Pairwise (· ≤ ·)) (h : ∀ e ∈ t, e.numOrb ≤ norb) :
    ((Sublat.add t id norb count).map (·.numOrb)).Pairwise (· ≤ ·) := by
  have happ : ((t ++ [(⟨id, count, norb⟩ : Elem)]).map (·.numOrb)).Pairwise (· ≤ ·) := by
    rw [List.map_append, List.pairwise_append]
    refine ⟨hs, by simp, ?_⟩
    intro a ha b hb
    obtain ⟨e, he, rfl⟩ := List.mem_map.1 ha
    simp only [List.map_cons, List.map_nil, List.mem_singleton] at hb
    subst hb
    exact h e he
  unfold Sublat.add
  split
  · exact happ
  · rename_i back hb
    split
    · exact happ
    · obtain ⟨ys, rfl⟩ := List.getLast?_eq_some_iff.1 hb
      rw [List.dropLast_concat]
      simpa using hs

/-- The pairs of a hopping generator are stored once, with the smaller index first, HoppingBlocks.cpp:68-77. -/
def Output.normal : Output C P → Output C P
  | .hoppings name energy pairs => .hoppings name energy (pairs.map fun q => (min q.1 q.2, max q.1 q.2)).dedup
  | o => o

/-- The family of a generator is registered; no hoppings of the family are stored yet. -/
def Registered (s : System C P) : Change C P → Prop
  | .sites name energy _ => ∃ id, s.siteRegistry.id name = .ok id ∧ s.siteRegistry.energy id = .ok energy ∧
      s.siteRegistry.name id = .ok name ∧ energy.cols = energy.rows ∧ 0 < energy.rows
  | .hoppings name energy _ => ∃ id, s.hoppingRegistry.id name = .ok id ∧ s.hoppingRegistry.energies[id]? = some energy ∧
      s.hoppingRegistry.names[id]? = some name ∧ s.hoppings.blocks[id]? = some []
  | .positions _ => True

theorem zipWith_boundaries (bs : List (Boundary P)) : List.zipWith (fun (b : Boundary P) h => (⟨b.shift, h⟩ : Boundary P)) bs (bs.map (·.hoppings)) = bs := by
  induction bs with
  | nil => rfl
  | cons x xs ih => rw [List.map_cons, List.zipWith_cons_cons, ih]

theorem appendBlock_perm (rows cols : List Nat) :
    ((HoppingBlocks.appendBlock [] rows cols).map fun c => (c.row, c.col)).Perm ((rows.zip cols).map fun q => (min q.1 q.2, max q.1 q.2)).dedup := by
  refine (List.perm_ext_iff_of_nodup ?_ (List.nodup_dedup _)).2 ?_
  · refine List.Nodup.map ?_ ?_
    · rintro ⟨a, b⟩ ⟨c, d⟩ h
      simp only [Prod.mk.injEq] at h
      rw [h.1, h.2]
    · refine (HoppingBlocks.pairwise_appendBlock [] rows cols).imp ?_
      rintro ⟨a, b⟩ ⟨c, d⟩ h e
      rw [COO.mk.injEq] at e
      unfold Hopping.Spec.Lt at h
      simp only at h
      omega
  · rintro ⟨a, b⟩
    rw [List.mem_dedup, List.mem_map, List.mem_map]
    constructor
    · rintro ⟨c, hc, e⟩
      rw [HoppingBlocks.mem_appendBlock] at hc
      rcases hc with hc | ⟨i, m, n, h1, h2, rfl⟩
      · simp at hc
      · refine ⟨(m, n), ?_, e⟩
        rw [List.mem_iff_getElem?]
        exact ⟨i, by rw [List.zip, List.getElem?_zipWith, h1, h2]⟩
    · rintro ⟨⟨m, n⟩, hq, e⟩
      obtain ⟨i, hi⟩ := List.mem_iff_getElem?.1 hq
      rw [List.zip, List.getElem?_zipWith] at hi
      rcases h1 : rows[i]? with _ | m' <;> rcases h2 : cols[i]? with _ | n' <;> rw [h1, h2] at hi <;> simp at hi
      obtain ⟨rfl, rfl⟩ := hi
      exact ⟨⟨min m' n', max m' n'⟩, (HoppingBlocks.mem_appendBlock _ _ _ _).2 (.inr ⟨i, m', n', h1, h2, rfl⟩), e⟩

theorem bondsOf_modify (r : Registry C) (blocks : List (List COO)) (id : Nat) (h : blocks[id]? = some []) (f : List COO → List COO) :
    (bondsOf r (blocks.modify id f)).Perm (bondsOf r blocks ++ (f []).map fun c => ⟨c.row, c.col, regName r id, regEnergy r id⟩) := by
  obtain ⟨hlt, he⟩ := List.getElem?_eq_some_iff.1 h
  have e1 : blocks = blocks.take id ++ [] :: blocks.drop (id + 1) := by
    conv_lhs => rw [← List.take_append_drop id blocks, List.drop_eq_getElem_cons hlt, he]
  have e2 : blocks.modify id f = blocks.take id ++ f [] :: blocks.drop (id + 1) := by
    rw [List.modify_eq_take_cons_drop hlt, he]
  have hl : (blocks.take id).length = id := by rw [List.length_take]; omega
  unfold bondsOf
  rw [e2]
  conv_rhs => rw [e1]
  simp only [List.zipIdx_append, List.zipIdx_cons, hl, List.flatMap_append, List.flatMap_cons, List.map_nil, List.nil_append, Nat.zero_add,
    List.append_assoc]
  exact (List.Perm.append_left _ List.perm_append_comm)

theorem reg_of_ok {r : Registry C} {id : Nat} {e : Mat C} {n : String} (he : r.energies[id]? = some e) (hn : r.names[id]? = some n) :
    regEnergy r id = e ∧ regName r id = n := by
  unfold regEnergy regName
  rw [he, hn]
  exact ⟨rfl, rfl⟩

section
variable [Zero C] {s : System C P} {D : Desc C P}

theorem Ready.step_sites (h : Ready s D) {name : String} {energy : Mat C} {mk : Hopping.System P → List P}
    (hreg : Registered s (.sites name energy mk)) (hacc : D.Accepts (output s (.sites name energy mk))) :
    ∃ s', step s (.sites name energy mk) = .ok s' ∧ Ready s' (D.add (output s (.sites name energy mk))) ∧ s'.siteRegistry = s.siteRegistry ∧
      s'.hoppingRegistry = s.hoppingRegistry ∧ s'.boundaries = s.boundaries ∧ s'.hoppings.blocks = s.hoppings.blocks := by
  obtain ⟨id, h1, h2, h3, h4, h5⟩ := hreg
  have hE : energyAt s.siteRegistry (id : Int) = .ok energy := by
    unfold energyAt; rw [if_neg (by omega), Int.toNat_natCast, h2]
  have hN : nameAt s.siteRegistry (id : Int) = .ok name := by
    unfold nameAt; rw [if_neg (by omega), Int.toNat_natCast, h3]
  have hnorb : ∀ e ∈ s.sublattices, e.id = (id : Int) → e.numOrb = energy.rows := by
    intro e he hid
    obtain ⟨m, n, g1, -, g3, -⟩ := h.table e he
    rw [hid, hE, Res.ok.injEq] at g1
    rw [← g3, g1]
  set new := mk (tables s) with hnew
  have hstep : step s (.sites name energy mk) = .ok { s with
      positions := s.positions ++ new
      sublattices := Sublat.add s.sublattices (id : Int) energy.rows new.length
      hoppings := s.hoppings.addSites new.length } := by
    unfold step modifier
    simp only [h1, Res.bind_ok, Res.pure_eq]
    unfold Hopping.applyModifier Hopping.removeInvalid
    simp only [tables, List.length_nil, if_true, Res.bind_ok, Res.pure_eq]
    rw [zipWith_boundaries]
    rfl
  refine ⟨_, hstep, ?_, rfl, rfl, rfl, rfl⟩
  have horb : (D.add (output s (.sites name energy mk))).orbitals = D.orbitals ++ List.replicate new.length energy.rows := by
    show (D.sites ++ new.map fun p => (⟨name, energy, p⟩ : Site C P)).map (·.energy.rows) = _
    rw [List.map_append, List.map_map]
    congr 1
    show List.map (fun _ => energy.rows) new = _
    exact List.map_const'
  have hpre : ∀ (k n : Nat), D.orbitals[k]? = some n → (D.add (output s (.sites name energy mk))).orbitals[k]? = some n := by
    intro k n hk
    rw [horb, List.getElem?_append_left (List.getElem?_eq_some_iff.1 hk).1]
    exact hk
  constructor
  · show s.positions ++ new = _
    show _ = (D.sites ++ new.map fun p => (⟨name, energy, p⟩ : Site C P)).map (·.pos)
    rw [h.positions, List.map_append, List.map_map]
    congr 1
    exact (List.map_id new).symm
  · show tableNorbs (Sublat.add _ _ _ _) = _
    rw [add_norbs hnorb, h.norbs, horb]
  · intro x hx
    rcases List.mem_append.1 hx with hx | hx
    · exact h.square x hx
    · obtain ⟨p, -, rfl⟩ := List.mem_map.1 hx
      exact h4
  · intro k id' x hk hx
    have hk : (tableLabels (Sublat.add s.sublattices (id : Int) energy.rows new.length))[k]? = some id' := hk
    have hx : (D.sites ++ new.map fun p => (⟨name, energy, p⟩ : Site C P))[k]? = some x := hx
    have hlen : (tableLabels s.sublattices).length = D.sites.length := by
      rw [Sublat.length_tableLabels, ← Sublat.length_tableNorbs, h.length]
    rw [add_labels] at hk
    by_cases hlt : k < D.sites.length
    · rw [List.getElem?_append_left (by omega)] at hk
      rw [List.getElem?_append_left hlt] at hx
      exact h.labels k id' x hk hx
    · rw [List.getElem?_append_right (by omega)] at hk
      rw [List.getElem?_append_right (by omega), List.getElem?_map, Option.map_eq_some_iff] at hx
      obtain ⟨p, -, rfl⟩ := hx
      have hid : id' = (id : Int) := (List.mem_replicate.1 (List.mem_of_getElem? hk)).2
      subst hid
      exact ⟨hE, hN⟩
  · intro e he
    rcases mem_add he with ⟨e', h6, h7, h8⟩ | ⟨h6, h7⟩
    · rw [h7, h8]
      exact h.table e' h6
    · rw [h6, h7]
      exact ⟨energy, name, hE, hN, rfl, h4⟩
  · exact add_sorted h.sorted fun e he => (h.top e he).trans hacc
  · intro n hn
    rw [horb] at hn
    rcases List.mem_append.1 hn with hn | hn
    · exact h.orb n hn
    · rw [(List.mem_replicate.1 hn).2]
      exact h5
  · intro e he
    rcases mem_add he with ⟨e', h6, -, h8⟩ | ⟨-, h7⟩
    · rw [h8]
      exact (h.top e' h6).trans hacc
    · rw [h7]
      exact le_rfl
  · exact h.hopReg
  · exact h.blocks
  · exact h.bonds
  · intro x hx
    obtain ⟨g1, g2⟩ := h.fits x hx
    exact ⟨hpre _ _ g1, hpre _ _ g2⟩
  · intro b hb
    obtain ⟨g1, g2⟩ := h.boundaries b hb
    refine ⟨g1, fun fam bl hbl c hc => ?_⟩
    obtain ⟨g3, g4⟩ := g2 fam bl hbl c hc
    exact ⟨hpre _ _ g3, hpre _ _ g4⟩

theorem Ready.step_hoppings (h : Ready s D) {name : String} {energy : Mat C} {mk : Hopping.System P → List Nat × List Nat}
    (hreg : Registered s (.hoppings name energy mk)) (hacc : D.Accepts (output s (.hoppings name energy mk)).normal) :
    (step s (.hoppings name energy mk) = .err .runtimeError ↔ (mk (tables s)).1.length ≠ (mk (tables s)).2.length) ∧
    ((mk (tables s)).1.length = (mk (tables s)).2.length → ∃ s' id, step s (.hoppings name energy mk) = .ok s' ∧
      Ready s' (D.add (output s (.hoppings name energy mk)).normal) ∧ s'.siteRegistry = s.siteRegistry ∧
      s'.hoppingRegistry = s.hoppingRegistry ∧ s'.boundaries = s.boundaries ∧ s.hoppingRegistry.id name = .ok id ∧
      ∀ k : Nat, k ≠ id → s'.hoppings.blocks[k]? = s.hoppings.blocks[k]?) := by
  obtain ⟨id, h1, h2, h3, h4⟩ := hreg
  have hid : id < s.hoppings.blocks.length := (List.getElem?_eq_some_iff.1 h4).1
  rcases hpq : mk (tables s) with ⟨from', to'⟩
  have hcalc : step s (.hoppings name energy mk) = (if from'.length ≠ to'.length then .err .runtimeError else .ok { s with
      hoppings := { s.hoppings with blocks := s.hoppings.blocks.modify id fun b => HoppingBlocks.appendBlock b from' to' } }) := by
    unfold step modifier
    simp only [h1, Res.bind_ok, Res.pure_eq]
    unfold Hopping.applyModifier Hopping.removeInvalid
    have ht : (tables s).isValid.length = 0 := rfl
    simp only [ht, if_true, Res.bind_ok, hpq]
    unfold HoppingBlocks.append
    by_cases hl : from'.length = to'.length
    · have hid' : id < (tables s).hoppings.blocks.length := hid
      simp only [hl, ne_eq, not_true_eq_false, if_false, hid', if_true, Res.bind_ok]
      simp only [tables]
      rw [zipWith_boundaries]
    · simp only [ne_eq, hl, not_false_eq_true, if_true]
      rfl
  refine ⟨?_, ?_⟩
  · rw [hcalc]
    split
    · rename_i hl; simp only [true_iff]; exact hl
    · rename_i hl; simp only [reduceCtorEq, false_iff]; exact hl
  · intro hl
    simp only at hl
    rw [hcalc, if_neg (not_not.2 hl)]
    refine ⟨_, id, rfl, ?_, rfl, rfl, rfl, h1, ?_⟩
    · obtain ⟨hre, hrn⟩ := reg_of_ok h2 h3
      have hbonds : (bondsOf s.hoppingRegistry (s.hoppings.blocks.modify id fun b => HoppingBlocks.appendBlock b from' to')).Perm
          (D.add (output s (.hoppings name energy mk)).normal).bonds := by
        refine (bondsOf_modify _ _ _ h4 _).trans ?_
        refine h.bonds.append ?_
        simp only [hpq, hre, hrn]
        have := (appendBlock_perm from' to').map fun q : Nat × Nat => (⟨q.1, q.2, name, energy⟩ : Bond C)
        rwa [List.map_map] at this
      have hacc : (((from'.zip to').map fun q => (min q.1 q.2, max q.1 q.2)).dedup).Nodup ∧
          ∀ q ∈ (((from'.zip to').map fun q => (min q.1 q.2, max q.1 q.2)).dedup), q.1 ≤ q.2 ∧
          D.orbitals[q.1]? = some energy.rows ∧ D.orbitals[q.2]? = some energy.cols := by
        unfold output Output.normal at hacc
        simp only [hpq] at hacc
        exact hacc
      refine { positions := h.positions, norbs := h.norbs, square := h.square, labels := h.labels, table := h.table, sorted := h.sorted,
               orb := h.orb, top := h.top, hopReg := h.hopReg, blocks := ?_, bonds := hbonds, fits := ?_, boundaries := h.boundaries }
      · simp only [List.length_modify]
        exact h.blocks
      · intro x hx
        unfold output Output.normal at hx
        simp only [hpq] at hx
        rcases List.mem_append.1 hx with hx | hx
        · exact h.fits x hx
        · obtain ⟨q, hq, rfl⟩ := List.mem_map.1 hx
          exact (hacc.2 q hq).2
    · intro k hk
      simp only
      rw [List.getElem?_modify]
      simp [Ne.symm hk]

theorem Ready.step_positions (h : Ready s D) (f : List P → List P) :
    ∃ s', step s (.positions f) = .ok s' ∧ Ready s' (D.add (output s (.positions f))) ∧ s'.siteRegistry = s.siteRegistry ∧
      s'.hoppingRegistry = s.hoppingRegistry ∧ s'.boundaries = s.boundaries ∧ s'.hoppings.blocks = s.hoppings.blocks := by
  have hstep : step s (.positions f) = .ok { s with positions := Hopping.overwrite s.positions (f s.positions) } := by
    unfold step modifier Hopping.applyModifier
    simp only [tables, Res.bind_ok, Res.pure_eq]
    rw [zipWith_boundaries]
  refine ⟨_, hstep, ?_, rfl, rfl, rfl, rfl⟩
  have hl : (Hopping.overwrite s.positions (f s.positions)).length = D.sites.length := by
    have := congrArg List.length h.positions
    rw [List.length_map] at this
    unfold Hopping.overwrite
    simp only [List.length_append, List.length_take, List.length_drop]
    omega
  generalize hnew : Hopping.overwrite s.positions (f s.positions) = new at *
  have key : ∀ (xs : List (Site C P)) (new : List P), new.length = xs.length →
      (List.zipWith (fun (s : Site C P) p => { s with pos := p }) xs new).map (·.pos) = new ∧
      (List.zipWith (fun (s : Site C P) p => { s with pos := p }) xs new).map (fun x => (x.name, x.energy)) = xs.map fun x => (x.name, x.energy) := by
    intro xs
    induction xs with
    | nil => intro new hn; simp at hn; subst hn; exact ⟨rfl, rfl⟩
    | cons x xs ih =>
      intro new hn
      cases new with
      | nil => simp at hn
      | cons p new =>
        obtain ⟨e1, e2⟩ := ih new (by simpa using hn)
        simp only [List.zipWith_cons_cons, List.map_cons, e1, e2]
        exact ⟨trivial, trivial⟩
  obtain ⟨e1, e2⟩ := key D.sites new hl
  set D' := D.add (output s (.positions f)) with hD'
  have hsites : D'.sites = List.zipWith (fun (s : Site C P) p => { s with pos := p }) D.sites new := by
    rw [hD']
    unfold Desc.add output
    simp only [hnew]
  have horb : D'.orbitals = D.orbitals := by
    unfold Desc.orbitals
    rw [hsites]
    have := congrArg (List.map fun q : String × Mat C => q.2.rows) e2
    simpa [List.map_map, Function.comp_def] using this
  have hget : ∀ (k : Nat) x, D'.sites[k]? = some x → ∃ y, D.sites[k]? = some y ∧ y.energy = x.energy ∧ y.name = x.name := by
    intro k x hx
    have := congrArg (fun l => l[k]?) e2
    simp only [List.getElem?_map] at this
    rw [← hsites, hx] at this
    obtain ⟨y, hy, e⟩ := Option.map_eq_some_iff.1 this.symm
    simp only [Prod.mk.injEq] at e
    exact ⟨y, hy, e.2, e.1⟩
  refine { positions := ?_, norbs := ?_, square := ?_, labels := ?_, table := h.table, sorted := h.sorted, orb := ?_, top := h.top, hopReg := h.hopReg,
           blocks := h.blocks, bonds := h.bonds, fits := ?_, boundaries := ?_ }
  · rw [hsites, e1]
  · rw [horb]; exact h.norbs
  · intro x hx
    obtain ⟨k, hk⟩ := List.mem_iff_getElem?.1 hx
    obtain ⟨y, hy, e, -⟩ := hget k x hk
    rw [← e]
    exact h.square y (List.mem_of_getElem? hy)
  · intro k id x hk hx
    obtain ⟨y, hy, e, e'⟩ := hget k x hx
    rw [← e, ← e']
    exact h.labels k id y hk hy
  · rw [horb]; exact h.orb
  · rw [horb]; exact h.fits
  · rw [horb]; exact h.boundaries

end

end Verif.Pipeline.Generators
