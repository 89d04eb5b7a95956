import Verif.Pipeline.GeneratorSpec

/-!
# C96: the Hamiltonian of a model with generators
-/

namespace Verif.Pipeline.Generators

open Verif.Lattice (Registry)
open Verif.Sublat (Table Elem tableNorbs tableLabels)
open Verif.Sublat.Spec (firstRow)
open Verif.Hamiltonian
open Verif.Hopping (COO HoppingBlocks Csr)

variable {C K L P : Type}

/-- The names of the hopping generators. -/
def hopNames : List (Change C P) → List String
  | [] => []
  | .hoppings name _ _ :: cs => name :: hopNames cs
  | _ :: cs => hopNames cs

/-- The families of all generators are registered, under different names, and nothing has been generated. -/
def Pending (s : System C P) (cs : List (Change C P)) : Prop := (∀ c ∈ cs, Registered s c) ∧ (hopNames cs).Nodup

theorem mem_hopNames {cs : List (Change C P)} {name : String} {energy : Mat C} {mk : Hopping.System P → List Nat × List Nat}
    (h : Change.hoppings name energy mk ∈ cs) : name ∈ hopNames cs := by
  induction cs with
  | nil => simp at h
  | cons c cs ih =>
    rcases List.mem_cons.1 h with rfl | h
    · exact List.mem_cons_self
    · have := ih h
      cases c with
      | sites => exact this
      | hoppings => exact List.mem_cons_of_mem _ this
      | positions => exact this

theorem registered_keep {s s' : System C P} {c : Change C P} (h : Registered s c) (h1 : s'.siteRegistry = s.siteRegistry)
    (h2 : s'.hoppingRegistry = s.hoppingRegistry)
    (h3 : ∀ name energy mk id, c = .hoppings name energy mk → s.hoppingRegistry.id name = .ok id → s'.hoppings.blocks[id]? = s.hoppings.blocks[id]?) :
    Registered s' c := by
  cases c with
  | sites name energy mk => unfold Registered at *; rw [h1]; exact h
  | hoppings name energy mk =>
    obtain ⟨id, g1, g2, g3, g4⟩ := h
    exact ⟨id, by rw [h2]; exact g1, by rw [h2]; exact g2, by rw [h2]; exact g3, by rw [h3 _ _ _ id rfl g1]; exact g4⟩
  | positions f => trivial

section
variable [Zero C]

/-- One modifier. -/
theorem Ready.step {s s' : System C P} {D : Desc C P} (h : Ready s D) (c : Change C P) (hreg : Registered s c)
    (hacc : D.Accepts (output s c).normal) (hstep : Generators.step s c = .ok s') :
    Ready s' (D.add (output s c).normal) ∧ s'.siteRegistry = s.siteRegistry ∧ s'.hoppingRegistry = s.hoppingRegistry ∧ s'.boundaries = s.boundaries ∧
      ∀ k : Nat, (∀ name energy mk, c = .hoppings name energy mk → s.hoppingRegistry.id name ≠ .ok k) → s'.hoppings.blocks[k]? = s.hoppings.blocks[k]? := by
  cases c with
  | sites name energy mk =>
    obtain ⟨s1, e1, e2, e3, e4, e5, e6⟩ := h.step_sites hreg hacc
    rw [hstep, Res.ok.injEq] at e1
    subst e1
    exact ⟨e2, e3, e4, e5, fun k _ => by rw [e6]⟩
  | hoppings name energy mk =>
    obtain ⟨f1, f2⟩ := h.step_hoppings hreg hacc
    have hl : (mk (tables s)).1.length = (mk (tables s)).2.length := by
      by_contra hl
      rw [hstep] at f1
      exact absurd (f1.2 hl) (by simp)
    obtain ⟨s1, id, e1, e2, e3, e4, e5, e6, e7⟩ := f2 hl
    rw [hstep, Res.ok.injEq] at e1
    subst e1
    refine ⟨e2, e3, e4, e5, fun k hk => e7 k ?_⟩
    rintro rfl
    exact hk name energy mk rfl e6
  | positions f =>
    obtain ⟨s1, e1, e2, e3, e4, e5, e6⟩ := h.step_positions f
    rw [hstep, Res.ok.injEq] at e1
    subst e1
    exact ⟨e2, e3, e4, e5, fun k _ => by rw [e6]⟩

theorem pending_tail {s s1 : System C P} {c : Change C P} {cs : List (Change C P)} (hp : Pending s (c :: cs))
    (e2 : s1.siteRegistry = s.siteRegistry) (e3 : s1.hoppingRegistry = s.hoppingRegistry)
    (e5 : ∀ k : Nat, (∀ name energy mk, c = .hoppings name energy mk → s.hoppingRegistry.id name ≠ .ok k) → s1.hoppings.blocks[k]? = s.hoppings.blocks[k]?) :
    Pending s1 cs := by
  refine ⟨fun c' hc' => ?_, ?_⟩
  · refine registered_keep (hp.1 c' (List.mem_cons_of_mem _ hc')) e2 e3 ?_
    rintro name energy mk id rfl hid
    refine e5 id ?_
    rintro name' energy' mk' rfl hid'
    obtain ⟨i1, a1, -, a3, -⟩ := hp.1 _ (List.mem_cons_of_mem _ hc')
    obtain ⟨i2, b1, -, b3, -⟩ := hp.1 (.hoppings name' energy' mk') List.mem_cons_self
    rw [hid, Res.ok.injEq] at a1
    rw [hid', Res.ok.injEq] at b1
    subst a1
    subst b1
    rw [a3, Option.some.injEq] at b3
    subst b3
    exact (List.nodup_cons.1 hp.2).1 (mem_hopNames hc')
  · have := hp.2
    cases c with
    | sites => exact this
    | hoppings => exact (List.nodup_cons.1 this).2
    | positions => exact this

/-- All modifiers. -/
theorem Ready.run {s s' : System C P} {D : Desc C P} (h : Ready s D) (cs : List (Change C P)) (hp : Pending s cs)
    (hacc : D.AcceptsAll ((outputs s cs).map Output.normal)) (hrun : cs.foldlM Generators.step s = .ok s') :
    Ready s' (((outputs s cs).map Output.normal).foldl Desc.add D) ∧ s'.siteRegistry = s.siteRegistry ∧ s'.hoppingRegistry = s.hoppingRegistry ∧
      s'.boundaries = s.boundaries := by
  induction cs generalizing s D with
  | nil =>
    simp only [List.foldlM_nil, Res.pure_eq, Res.ok.injEq] at hrun
    subst hrun
    exact ⟨h, rfl, rfl, rfl⟩
  | cons c cs ih =>
    rw [List.foldlM_cons] at hrun
    rcases hs : Generators.step s c with s1 | e | _
    · rw [hs, Res.bind_ok] at hrun
      have hout : outputs s (c :: cs) = output s c :: outputs s1 cs := by
        show output s c :: _ = _
        rw [hs]
      rw [hout, List.map_cons] at hacc ⊢
      obtain ⟨g1, g2⟩ := hacc
      obtain ⟨e1, e2, e3, e4, e5⟩ := h.step c (hp.1 c List.mem_cons_self) g1 hs
      have hp' : Pending s1 cs := pending_tail hp e2 e3 e5
      obtain ⟨f1, f2, f3, f4⟩ := ih e1 hp' g2 hrun
      rw [List.foldl_cons]
      exact ⟨f1, f2.trans e2, f3.trans e3, f4.trans e4⟩
    · rw [hs] at hrun; cases hrun
    · rw [hs] at hrun; cases hrun

end

/-- Specification: the contribution of the boundaries, as in C49. -/
def boundarySum [Zero C] [NonUnitalNonAssocSemiring K] [StarAddMonoid K] [Sub P] [Inhabited P] (cast : C → K) (gs : List (ElemFn K P)) (phase : P → K)
    (s : System C P) (D : Desc C P) (a b i j : Nat) : K :=
  (s.boundaries.map fun bd =>
    hopAt cast D.posAt (some bd.shift) gs (regEnergy s.hoppingRegistry) (regName s.hoppingRegistry) bd.hoppings.blocks a b i j * phase bd.shift
    + star (hopAt cast D.posAt (some bd.shift) gs (regEnergy s.hoppingRegistry) (regName s.hoppingRegistry) bd.hoppings.blocks b a j i
        * phase bd.shift)).sum

/-- Specification: the element between orbital `i` of site `a` and orbital `j` of site `b` in a description: the onsite energy, the bonds from `a` to
`b`, and the conjugate transposes of those from `b` to `a`. -/
def Desc.elem [Zero C] [NonUnitalNonAssocSemiring K] [StarAddMonoid K] [Inhabited P] (cast : C → K) (gs : List (ElemFn K P)) (gos : List (OnsiteFn K P))
    (D : Desc C P) (a b i j : Nat) : K :=
  (if a = b then D.onsite cast gos a i j else 0) + (bondSum cast gs D D.bonds a b i j + star (bondSum cast gs D D.bonds b a j i))

section
variable [AddMonoid C] [DecidableEq C] [NonUnitalNonAssocSemiring K] [StarAddMonoid K] [DecidableEq K] [Sub P] [Inhabited P] (cast : C → K) (hc0 : cast 0 = 0)
  (mods : Modifiers K P) (gs : List (ElemFn K P)) (gos : List (OnsiteFn K P)) (maxBuffer : Nat) (phase : P → K)
  (hch : ∀ r c, Chain r c mods.hopping gs) (hon : ∀ n, OnsiteChain n mods.onsite gos)
include hc0 hch hon

/-- **C96** (matrix).  The Hamiltonian of a system which consists of given sites and bonds, on the path for models with generators. -/
theorem Ready.matrix {s : System C P} {D : Desc C P} (h : Ready s D) (hbuf : ∀ m ∈ s.hoppingRegistry.energies, m.size ≤ maxBuffer) :
    ∃ m, make cast s mods maxBuffer phase false = .ok m ∧ Sorted (Sublat.hamiltonianSize s.sublattices) m ∧
      ∀ a b i j, i < D.orbitals.getD a 0 → j < D.orbitals.getD b 0 →
        coeff m (firstRow D.orbitals a + i) (firstRow D.orbitals b + j) = D.elem cast gs gos a b i j + boundarySum cast gs phase s D a b i j := by
  obtain ⟨m, h1, h2, h3⟩ := C49_coefficients cast s mods gs maxBuffer phase (regEnergy s.hoppingRegistry) (regName s.hoppingRegistry) D.posAt gos
    D.energyOf D.nameOf false hc0 h.sitesOK h.hopOK h.boundaryOK (by simp)
    (by
      intro k hk
      rw [h.length] at hk
      unfold Desc.posAt
      rw [h.positions, List.getElem?_map, List.getElem?_eq_getElem hk]
      rfl)
    (by
      intro fam
      unfold regEnergy
      split
      · rename_i e he
        exact hbuf e (List.mem_of_getElem? he)
      · exact Nat.zero_le _)
    (fun _ => hch _ _) (fun _ _ => hon _)
  refine ⟨m, h1, h2, ?_⟩
  intro a b i j hi hj
  rw [h.norbs] at h3
  rw [h3 a b i j hi hj, hopAt_bonds, hopAt_bonds, bondSum_perm cast gs D h.bonds, bondSum_perm cast gs D h.bonds]
  unfold Desc.elem boundarySum
  have hons : finalOnsite gos (D.nameOf a) (fun i j => cast (entry (D.energyOf a) i j)) (D.posAt a) i j = D.onsite cast gos a i j := by
    have ha : a < D.sites.length := by
      by_contra hc
      rw [List.getD_eq_getElem?_getD, List.getElem?_eq_none (by simp [Desc.orbitals]; omega)] at hi
      simp at hi
    unfold Desc.nameOf Desc.energyOf Desc.posAt Desc.onsite
    rw [List.getElem?_eq_getElem ha]
  rw [hons]

/-- **C96** (build).  If the functions of the user return what fits, the Hamiltonian is that of the sites and bonds which were there, together with
the ones returned: each new site has the onsite energy of its generator, each pair contributes the energy of its generator in one direction and the
conjugate transpose in the other, and the onsite and hopping modifiers act on all of them, with their names and positions. -/
theorem C96_build {s s' : System C P} {D : Desc C P} (h : Ready s D) (cs : List (Change C P)) (hp : Pending s cs)
    (hacc : D.AcceptsAll ((outputs s cs).map Output.normal)) (hrun : cs.foldlM Generators.step s = .ok s')
    (hbuf : ∀ m ∈ s.hoppingRegistry.energies, m.size ≤ maxBuffer) :
    ∃ m, make cast s' mods maxBuffer phase false = .ok m ∧ Sorted (Sublat.hamiltonianSize s'.sublattices) m ∧
      ∃ D', D' = ((outputs s cs).map Output.normal).foldl Desc.add D ∧ s'.positions = D'.sites.map (·.pos) ∧ tableNorbs s'.sublattices = D'.orbitals ∧
      ∀ a b i j, i < D'.orbitals.getD a 0 → j < D'.orbitals.getD b 0 →
        coeff m (firstRow D'.orbitals a + i) (firstRow D'.orbitals b + j) = D'.elem cast gs gos a b i j + boundarySum cast gs phase s D' a b i j := by
  obtain ⟨h1, h2, h3, h4⟩ := h.run cs hp hacc hrun
  obtain ⟨m, g1, g2, g3⟩ := h1.matrix cast hc0 mods gs gos maxBuffer phase hch hon (by rw [h3]; exact hbuf)
  refine ⟨m, g1, g2, _, rfl, h1.positions, h1.norbs, ?_⟩
  intro a b i j hi hj
  rw [g3 a b i j hi hj]
  unfold boundarySum
  rw [h3, h4]

end

/-! ## What is added -/

/-- The results contain no moved positions. -/
def Output.still : Output C P → Prop
  | .positions _ => False
  | _ => True

/-- The new sites, in order. -/
def newSites (os : List (Output C P)) : List (Site C P) :=
  os.flatMap fun o => match o with
    | .sites name energy new => new.map fun p => ⟨name, energy, p⟩
    | _ => []

/-- The new bonds, in order. -/
def newBonds (os : List (Output C P)) : List (Bond C) :=
  os.flatMap fun o => match o with
    | .hoppings name energy pairs => pairs.map fun q => ⟨q.1, q.2, name, energy⟩
    | _ => []

theorem foldl_add (os : List (Output C P)) (hst : ∀ o ∈ os, o.still) (D : Desc C P) :
    (os.foldl Desc.add D).sites = D.sites ++ newSites os ∧ (os.foldl Desc.add D).bonds = D.bonds ++ newBonds os := by
  induction os generalizing D with
  | nil => simp [newSites, newBonds]
  | cons o os ih =>
    rw [List.foldl_cons]
    obtain ⟨e1, e2⟩ := ih (fun o ho => hst o (List.mem_cons_of_mem _ ho)) (D.add o)
    rw [e1, e2]
    have := hst o List.mem_cons_self
    cases o with
    | sites => simp [newSites, newBonds, Desc.add]
    | hoppings => simp [newSites, newBonds, Desc.add]
    | positions => exact absurd this id

section
variable [Zero C] [AddCommMonoid K] [Inhabited P] (cast : C → K)

theorem bondSum_congr (gs : List (ElemFn K P)) {D D' : Desc C P} (bonds : List (Bond C)) (a b i j : Nat)
    (h : ∀ x ∈ bonds, x.src = a → x.dst = b → D'.posAt a = D.posAt a ∧ D'.posAt b = D.posAt b) :
    bondSum cast gs D' bonds a b i j = bondSum cast gs D bonds a b i j := by
  unfold bondSum
  congr 1
  apply List.map_congr_left
  intro x hx
  split
  · rename_i hab
    obtain ⟨e1, e2⟩ := h x hx hab.1 hab.2
    rw [e1, e2]
  · rfl

theorem bondSum_zero (gs : List (ElemFn K P)) (D : Desc C P) (bonds : List (Bond C)) (a b i j : Nat) (h : ∀ x ∈ bonds, ¬ (x.src = a ∧ x.dst = b)) :
    bondSum cast gs D bonds a b i j = 0 := by
  unfold bondSum
  apply List.sum_eq_zero
  intro y hy
  obtain ⟨x, hx, rfl⟩ := List.mem_map.1 hy
  exact if_neg (h x hx)

end

theorem orbitals_lt {D : Desc C P} {k n : Nat} (h : D.orbitals[k]? = some n) : k < D.sites.length := by
  have := (List.getElem?_eq_some_iff.1 h).1
  simpa [Desc.orbitals] using this

theorem posAt_append [Inhabited P] {D D' : Desc C P} {X : List (Site C P)} (h : D'.sites = D.sites ++ X) {a : Nat} (ha : a < D.sites.length) :
    D'.posAt a = D.posAt a := by
  unfold Desc.posAt
  rw [h, List.getElem?_append_left ha]

theorem hopAt_congr [Zero C] [AddCommMonoid K] [Sub P] (cast : C → K) (gs : List (ElemFn K P)) (E : Nat → Mat C) (N : Nat → String) (shift : Option P)
    (f g : Nat → P) (blocks : List (List COO)) (a b i j : Nat) (h : ∀ bl ∈ blocks, (⟨a, b⟩ : COO) ∈ bl → f a = g a ∧ f b = g b) :
    hopAt cast f shift gs E N blocks a b i j = hopAt cast g shift gs E N blocks a b i j := by
  unfold hopAt
  congr 1
  apply List.map_congr_left
  rintro ⟨bl, fam⟩ hx
  simp only
  by_cases hm : (⟨a, b⟩ : COO) ∈ bl
  · obtain ⟨e1, e2⟩ := h bl (List.mem_of_getElem? (List.mem_zipIdx_iff_getElem?.1 hx)) hm
    rw [e1, e2]
  · rw [List.count_eq_zero.2 hm, zero_smul, zero_smul]

theorem hopAt_none [Zero C] [AddCommMonoid K] [Sub P] (cast : C → K) (gs : List (ElemFn K P)) (E : Nat → Mat C) (N : Nat → String) (shift : Option P)
    (f : Nat → P) (blocks : List (List COO)) (a b i j : Nat) (h : ∀ bl ∈ blocks, (⟨a, b⟩ : COO) ∉ bl) :
    hopAt cast f shift gs E N blocks a b i j = 0 := by
  unfold hopAt
  apply List.sum_eq_zero
  intro y hy
  obtain ⟨⟨bl, fam⟩, hx, rfl⟩ := List.mem_map.1 hy
  simp only
  rw [List.count_eq_zero.2 (h bl (List.mem_of_getElem? (List.mem_zipIdx_iff_getElem?.1 hx))), zero_smul]

theorem firstRow_append (xs ys : List Nat) {a : Nat} (h : a ≤ xs.length) : firstRow (xs ++ ys) a = firstRow xs a := by
  unfold firstRow
  rw [List.take_append_of_le_length h]

section
variable [AddMonoid C] [DecidableEq C] [NonUnitalNonAssocSemiring K] [StarAddMonoid K] [DecidableEq K] [Sub P] [Inhabited P] (cast : C → K) (hc0 : cast 0 = 0)
  (mods : Modifiers K P) (gs : List (ElemFn K P)) (gos : List (OnsiteFn K P)) (maxBuffer : Nat) (phase : P → K)
  (hch : ∀ r c, Chain r c mods.hopping gs) (hon : ∀ n, OnsiteChain n mods.onsite gos)
include hc0 hch hon

/-- **C96** (extension).  The Hamiltonian with generators is the Hamiltonian without them for the sites which were there, with the onsite energies of
the new sites and the energies of the new bonds added; nothing else changes.  (Periodic boundaries: the new sites get no hoppings across them.) -/
theorem C96_extends {s s' : System C P} {D : Desc C P} (h : Ready s D) (cs : List (Change C P)) (hp : Pending s cs)
    (hacc : D.AcceptsAll ((outputs s cs).map Output.normal)) (hrun : cs.foldlM Generators.step s = .ok s')
    (hstill : ∀ o ∈ (outputs s cs).map Output.normal, o.still) (hbuf : ∀ m ∈ s.hoppingRegistry.energies, m.size ≤ maxBuffer) :
    ∃ m m' D', make cast s mods maxBuffer phase false = .ok m ∧ make cast s' mods maxBuffer phase false = .ok m' ∧
      D' = ((outputs s cs).map Output.normal).foldl Desc.add D ∧ D'.sites = D.sites ++ newSites ((outputs s cs).map Output.normal) ∧
      tableNorbs s.sublattices = D.orbitals ∧ tableNorbs s'.sublattices = D'.orbitals ∧ s'.positions = D'.sites.map (·.pos) ∧
      Sorted D'.orbitals.sum m' ∧
      ∀ a b i j, i < D'.orbitals.getD a 0 → j < D'.orbitals.getD b 0 →
        coeff m' (firstRow D'.orbitals a + i) (firstRow D'.orbitals b + j)
          = (if a < D.sites.length ∧ b < D.sites.length then coeff m (firstRow D.orbitals a + i) (firstRow D.orbitals b + j)
              else if a = b then D'.onsite cast gos a i j else 0)
            + (bondSum cast gs D' (newBonds ((outputs s cs).map Output.normal)) a b i j
                + star (bondSum cast gs D' (newBonds ((outputs s cs).map Output.normal)) b a j i)) := by
  obtain ⟨m, m1, m2, m3⟩ := h.matrix cast hc0 mods gs gos maxBuffer phase hch hon hbuf
  obtain ⟨m', n1, n2, D', hD', n3, n4, n5⟩ := C96_build cast hc0 mods gs gos maxBuffer phase hch hon h cs hp hacc hrun hbuf
  obtain ⟨e1, e2⟩ := foldl_add _ hstill D
  rw [← hD'] at e1 e2
  refine ⟨m, m', D', m1, n1, hD', e1, h.norbs, n4, n3, ?_, ?_⟩
  · rw [Sublat.hamiltonianSize_eq, n4] at n2
    exact n2
  intro a b i j hi hj
  rw [n5 a b i j hi hj]
  have horb : D'.orbitals = D.orbitals ++ (newSites ((outputs s cs).map Output.normal)).map (·.energy.rows) := by
    unfold Desc.orbitals; rw [e1, List.map_append]
  have hbd : ∀ (bd : Boundary P), bd ∈ s.boundaries → ∀ bl ∈ bd.hoppings.blocks, ∀ c ∈ bl, c.row < D.sites.length ∧ c.col < D.sites.length := by
    intro bd hbd bl hbl c hc
    obtain ⟨fam, hfam⟩ := List.mem_iff_getElem?.1 hbl
    obtain ⟨g1, g2⟩ := (h.boundaries bd hbd).2 fam bl hfam c hc
    exact ⟨orbitals_lt g1, orbitals_lt g2⟩
  unfold Desc.elem
  rw [e2, bondSum_append, bondSum_append, star_add]
  by_cases hab : a < D.sites.length ∧ b < D.sites.length
  · obtain ⟨ha, hb⟩ := hab
    rw [if_pos (show a < D.sites.length ∧ b < D.sites.length from ⟨ha, hb⟩)]
    have hla : a < D.orbitals.length := by simpa [Desc.orbitals] using ha
    have hlb : b < D.orbitals.length := by simpa [Desc.orbitals] using hb
    have hi' : i < D.orbitals.getD a 0 := by
      rwa [horb, List.getD_eq_getElem?_getD, List.getElem?_append_left hla, ← List.getD_eq_getElem?_getD] at hi
    have hj' : j < D.orbitals.getD b 0 := by
      rwa [horb, List.getD_eq_getElem?_getD, List.getElem?_append_left hlb, ← List.getD_eq_getElem?_getD] at hj
    rw [m3 a b i j hi' hj']
    unfold Desc.elem
    have p1 := posAt_append e1 ha
    have p2 := posAt_append e1 hb
    have q1 : D'.onsite cast gos a i j = D.onsite cast gos a i j := by
      unfold Desc.onsite; rw [e1, List.getElem?_append_left ha]
    have q2 : bondSum cast gs D' D.bonds a b i j = bondSum cast gs D D.bonds a b i j := bondSum_congr cast gs _ a b i j fun _ _ _ _ => ⟨p1, p2⟩
    have q3 : bondSum cast gs D' D.bonds b a j i = bondSum cast gs D D.bonds b a j i := bondSum_congr cast gs _ b a j i fun _ _ _ _ => ⟨p2, p1⟩
    have q4 : boundarySum cast gs phase s D' a b i j = boundarySum cast gs phase s D a b i j := by
      unfold boundarySum
      congr 1
      apply List.map_congr_left
      intro bd _
      rw [hopAt_congr cast gs _ _ _ D'.posAt D.posAt _ a b i j fun _ _ _ => ⟨p1, p2⟩,
        hopAt_congr cast gs _ _ _ D'.posAt D.posAt _ b a j i fun _ _ _ => ⟨p2, p1⟩]
    rw [q1, q2, q3, q4]
    abel
  · rw [if_neg hab]
    have hno : ∀ x ∈ D.bonds, x.src < D.sites.length ∧ x.dst < D.sites.length := fun x hx =>
      ⟨orbitals_lt (h.fits x hx).1, orbitals_lt (h.fits x hx).2⟩
    have q2 : bondSum cast gs D' D.bonds a b i j = 0 := bondSum_zero cast gs _ _ a b i j (by
      rintro x hx ⟨rfl, rfl⟩
      exact hab (hno x hx))
    have q3 : bondSum cast gs D' D.bonds b a j i = 0 := bondSum_zero cast gs _ _ b a j i (by
      rintro x hx ⟨rfl, rfl⟩
      exact hab (hno x hx).symm)
    have q4 : boundarySum cast gs phase s D' a b i j = 0 := by
      unfold boundarySum
      apply List.sum_eq_zero
      intro y hy
      obtain ⟨bd, hb, rfl⟩ := List.mem_map.1 hy
      rw [hopAt_none cast gs _ _ _ _ _ a b i j (fun bl hbl hc => hab (hbd bd hb bl hbl _ hc)),
        hopAt_none cast gs _ _ _ _ _ b a j i (fun bl hbl hc => hab (hbd bd hb bl hbl _ hc).symm), zero_mul, star_zero, add_zero]
    rw [q2, q3, q4, star_zero]
    abel

end

end Verif.Pipeline.Generators
