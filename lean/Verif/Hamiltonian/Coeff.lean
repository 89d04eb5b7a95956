import Verif.Hamiltonian.Props2

/-!
# Coefficients of the Hamiltonian
-/

namespace Verif.Hamiltonian

open Verif.Sublat (Table It iters itersFrom tableNorbs tableLabels)
open Verif.Sublat.Spec (firstRow)
open Verif.Hopping (COO HoppingBlocks Csr csrInsert overwrite)
open Verif.Lattice (Registry)

variable {C K P : Type}

/-- Functions applied by element-wise onsite modifiers. -/
abbrev OnsiteFn (K P : Type) := String → (Nat → Nat → K) → P → Nat → Nat → K

/-- Specification: an onsite modifier that acts on each site separately, as the function `g` does. -/
def OnsiteElementwise (n : Nat) (f : OnsiteModifier K P) (g : OnsiteFn K P) : Prop :=
  ∀ (name : String) (xs : List ((Nat → Nat → K) × P)),
    f (layout n n (xs.map (·.1))) (xs.map (·.2)) name
      = .ok (layout n n (xs.map fun x => g name x.1 x.2))

/-- A chain of onsite modifiers with the functions they apply to each site. -/
inductive OnsiteChain (n : Nat) : List (OnsiteModifier K P) → List (OnsiteFn K P) → Prop
  | nil : OnsiteChain n [] []
  | cons {f g fs gs} : OnsiteElementwise n f g → OnsiteChain n fs gs → OnsiteChain n (f :: fs) (g :: gs)

/-- Specification: the energy of one site after all modifiers, applied in order. -/
def finalOnsite (gs : List (OnsiteFn K P)) (name : String) (e : Nat → Nat → K) (p : P) : Nat → Nat → K :=
  gs.foldl (fun e g => g name e p) e

theorem runOnsite_chain (n : Nat) (fs : List (OnsiteModifier K P)) (gs : List (OnsiteFn K P))
    (h : OnsiteChain n fs gs) (name : String) (es : List (Nat → Nat → K)) (ps : List P)
    (hl : ps.length = es.length) :
    runOnsite ps name fs (layout n n es)
      = .ok (layout n n ((es.zip ps).map fun x => finalOnsite gs name x.1 x.2)) := by
  induction h generalizing es with
  | nil =>
    unfold runOnsite
    congr 2
    exact (List.map_fst_zip (by omega)).symm
  | @cons f g fs gs hf _ ih =>
    unfold runOnsite
    have key := hf name (es.zip ps)
    rw [List.map_fst_zip (by omega), List.map_snd_zip (by omega)] at key
    rw [key]
    simp only [Res.bind_ok]
    have hlen : ((es.zip ps).map fun x => g name x.1 x.2).length = es.length := by
      rw [List.length_map, List.length_zip]; omega
    rw [overwrite_eq _ _ (by rw [length_layout, length_layout, hlen]), ih _ (by rw [hlen, hl])]
    congr 2
    have : ∀ (es : List (Nat → Nat → K)) (ps : List P),
        ((((es.zip ps).map fun x => g name x.1 x.2).zip ps).map fun x => finalOnsite gs name x.1 x.2)
        = (es.zip ps).map fun x => finalOnsite (g :: gs) name x.1 x.2 := by
      intro es
      induction es with
      | nil => intro ps; rfl
      | cons e es ihe =>
        intro ps
        cases ps with
        | nil => rfl
        | cons p ps => simp only [List.zip_cons_cons, List.map_cons, ihe]; rfl
    exact this es ps

/-- The sites of a block of the sublattice table. -/
theorem iters_site (t : Table) (a b : Nat) (sub : It) (h : sub ∈ itersFrom a b t) (k : Nat)
    (hk : k < sub.elem.numSites) :
    a ≤ sub.sysStart ∧
    (tableLabels t)[sub.sysStart - a + k]? = some sub.elem.id ∧
    (tableNorbs t)[sub.sysStart - a + k]? = some sub.elem.numOrb ∧
    sub.hamStart + k * sub.elem.numOrb = b + firstRow (tableNorbs t) (sub.sysStart - a + k) := by
  induction t generalizing a b with
  | nil => simp [itersFrom] at h
  | cons e t ih =>
    have hn : tableNorbs (e :: t) = List.replicate e.numSites e.numOrb ++ tableNorbs t := by
      simp [tableNorbs]
    have hlab : tableLabels (e :: t) = List.replicate e.numSites e.id ++ tableLabels t := by
      simp [tableLabels]
    unfold itersFrom at h
    rcases List.mem_cons.1 h with rfl | h
    · simp only [Sublat.It.sysStart, Sublat.It.hamStart] at hk ⊢
      rw [Nat.sub_self, Nat.zero_add, hn, hlab, firstRow_replicate_append, if_pos hk,
        List.getElem?_append_left (by simpa using hk), List.getElem?_append_left (by simpa using hk),
        List.getElem?_replicate, List.getElem?_replicate, if_pos hk, if_pos hk]
      exact ⟨Nat.le_refl _, rfl, rfl, rfl⟩
    · obtain ⟨h1, h2, h3, h4⟩ := ih _ _ h
      have e1 : sub.sysStart - a + k = e.numSites + (sub.sysStart - (a + e.numSites) + k) := by omega
      rw [e1, hn, hlab, firstRow_replicate_append, if_neg (by omega), Nat.add_sub_cancel_left,
        List.getElem?_append_right (by simp), List.getElem?_append_right (by simp)]
      simp only [List.length_replicate, Nat.add_sub_cancel_left]
      exact ⟨by omega, h2, h3, by omega⟩

theorem flatMap_iters {β : Type} (t : Table) (a b : Nat) (F : Nat → List β) :
    ((itersFrom a b t).flatMap fun sub => (List.range sub.elem.numSites).flatMap fun k => F (sub.sysStart + k))
      = (List.range (tableNorbs t).length).flatMap fun k => F (a + k) := by
  induction t generalizing a b with
  | nil => simp [itersFrom, tableNorbs]
  | cons e t ih =>
    have hn : tableNorbs (e :: t) = List.replicate e.numSites e.numOrb ++ tableNorbs t := by
      simp [tableNorbs]
    unfold itersFrom
    rw [List.flatMap_cons, ih, hn, List.length_append, List.length_replicate, List.range_add,
      List.flatMap_append, List.flatMap_map]
    congr 1
    congr 1
    funext k
    rw [Nat.add_assoc]

/-- The site energies fit the system: site `k` has the label of a registered energy `S k` with name
`N k` whose size is the number of orbitals of the site; also labels without sites are registered. -/
structure SitesOK (s : System C P) (S : Nat → Mat C) (N : Nat → String) : Prop where
  table : ∀ e ∈ s.sublattices, ∃ m n, energyAt s.siteRegistry e.id = .ok m ∧
    nameAt s.siteRegistry e.id = .ok n ∧ m.rows = e.numOrb ∧ m.cols = e.numOrb
  energy : ∀ k id, (Sublat.decompressed s.sublattices)[k]? = some (some id) →
    energyAt s.siteRegistry id = .ok (S k) ∧ nameAt s.siteRegistry id = .ok (N k)
  fits : ∀ k n, (tableNorbs s.sublattices)[k]? = some n → (S k).rows = n ∧ (S k).cols = n

/-- Specification: the onsite calls of site `k`. -/
def siteCalls [Zero C] [Zero K] [DecidableEq K] (cast : C → K) (norbs : List Nat) (posAt : Nat → P)
    (gs : List (OnsiteFn K P)) (S : Nat → Mat C) (N : Nat → String) (k : Nat) : List (Call K) :=
  elemCalls (place norbs ⟨k, k⟩) (norbs.getD k 0) (norbs.getD k 0)
    (finalOnsite gs (N k) (fun i j => cast (entry (S k) i j)) (posAt k))

theorem zero_energy [Zero C] [DecidableEq C] {r : Registry C} (h : hasNonzeroEnergy r = false)
    {id : Int} {m : Mat C} (hm : energyAt r id = .ok m) (i j : Nat) : entry m i j = 0 := by
  unfold hasNonzeroEnergy at h
  rw [List.any_eq_false] at h
  have h1 := h m (energyAt_mem hm)
  rw [Bool.not_eq_true, List.any_eq_false] at h1
  unfold entry
  split
  · rename_i hij
    have := h1 (m.e ⟨i, hij.1⟩ ⟨j, hij.2⟩) (by
      unfold flat
      rw [List.mem_flatMap]
      exact ⟨⟨i, hij.1⟩, List.mem_finRange _, List.mem_map.2 ⟨⟨j, hij.2⟩, List.mem_finRange _, rfl⟩⟩)
    simpa using this
  · rfl

theorem layout_congr (r c : Nat) (es fs : List (Nat → Nat → K)) (hl : es.length = fs.length)
    (h : ∀ (k : Nat) e f, es[k]? = some e → fs[k]? = some f → ∀ i j, i < r → j < c → e i j = f i j) :
    layout r c es = layout r c fs := by
  unfold layout
  rw [List.flatMap_def, List.flatMap_def]
  congr 1
  apply List.map_congr_left
  intro i hi
  rw [List.flatMap_def, List.flatMap_def]
  congr 1
  apply List.map_congr_left
  intro j hj
  apply List.ext_getElem?
  intro k
  rw [List.getElem?_map, List.getElem?_map]
  by_cases hk : k < es.length
  · rw [List.getElem?_eq_getElem hk, List.getElem?_eq_getElem (hl ▸ hk)]
    simp only [Option.map_some, Option.some.injEq]
    exact h k _ _ (List.getElem?_eq_getElem hk) (List.getElem?_eq_getElem (hl ▸ hk)) i j
      (List.mem_range.1 hi) (List.mem_range.1 hj)
  · rw [List.getElem?_eq_none (by omega), List.getElem?_eq_none (by omega)]

/-- The energies of one sublattice are those of its sites. -/
theorem onsiteData_spec [Zero C] [DecidableEq C] [Zero K] (cast : C → K) (hc0 : cast 0 = 0) (s : System C P)
    (mods : List (OnsiteModifier K P)) (gs : List (OnsiteFn K P)) (S : Nat → Mat C) (N : Nat → String)
    (hok : SitesOK s S N) (posAt : Nat → P)
    (hpos : ∀ k, k < (tableNorbs s.sublattices).length → s.positions[k]? = some (posAt k))
    (hch : ∀ e ∈ s.sublattices, OnsiteChain e.numOrb mods gs) (sub : It) (hsub : sub ∈ iters s.sublattices) :
    onsiteData cast s mods (hasNonzeroEnergy s.siteRegistry) sub
      = .ok (layout sub.elem.numOrb sub.elem.numOrb ((List.range sub.elem.numSites).map fun k =>
          finalOnsite gs (N (sub.sysStart + k)) (fun i j => cast (entry (S (sub.sysStart + k)) i j))
            (posAt (sub.sysStart + k)))) := by
  have hsite : ∀ k, k < sub.elem.numSites → energyAt s.siteRegistry sub.elem.id = .ok (S (sub.sysStart + k)) ∧
      nameAt s.siteRegistry sub.elem.id = .ok (N (sub.sysStart + k)) ∧
      (S (sub.sysStart + k)).rows = sub.elem.numOrb ∧ (S (sub.sysStart + k)).cols = sub.elem.numOrb ∧
      sub.sysStart + k < (tableNorbs s.sublattices).length := by
    intro k hk
    obtain ⟨-, h2, h3, -⟩ := iters_site s.sublattices 0 0 sub hsub k hk
    rw [Nat.sub_zero] at h2 h3
    obtain ⟨e1, e2⟩ := hok.energy (sub.sysStart + k) sub.elem.id (by
      rw [Sublat.decompressed_eq, List.getElem?_map, h2]; rfl)
    obtain ⟨e3, e4⟩ := hok.fits _ _ h3
    exact ⟨e1, e2, e3, e4, (List.getElem?_eq_some_iff.1 h3).1⟩
  obtain ⟨m, nm, hm, hnm, e3, e4⟩ := hok.table _ (iters_elem hsub)
  have hS : ∀ k, k < sub.elem.numSites → S (sub.sysStart + k) = m ∧ N (sub.sysStart + k) = nm := by
    intro k hk
    obtain ⟨e1, e2, -⟩ := hsite k hk
    rw [hm, Res.ok.injEq] at e1
    rw [hnm, Res.ok.injEq] at e2
    exact ⟨e1.symm, e2.symm⟩
  have hint : onsiteIntrinsic cast s.siteRegistry (hasNonzeroEnergy s.siteRegistry) sub
      = .ok (layout sub.elem.numOrb sub.elem.numOrb
          (List.replicate sub.elem.numSites fun i j => cast (entry m i j))) := by
    cases hi : hasNonzeroEnergy s.siteRegistry with
    | true => exact onsiteIntrinsic_eq cast _ sub m hm e3 e4
    | false =>
      unfold onsiteIntrinsic
      simp only [Bool.false_eq_true, if_false, Res.ok.injEq]
      have hz : (fun i j => cast (entry m i j)) = fun _ _ => (0 : K) := by
        funext i j
        rw [zero_energy hi hm, hc0]
      rw [hz]
      symm
      rw [List.eq_replicate_iff]
      refine ⟨by rw [length_layout]; simp [Nat.mul_assoc], ?_⟩
      intro x hx
      obtain ⟨i, -, hx⟩ := List.mem_flatMap.1 hx
      obtain ⟨j, -, hx⟩ := List.mem_flatMap.1 hx
      obtain ⟨e, he, rfl⟩ := List.mem_map.1 hx
      rw [List.eq_of_mem_replicate he]
  have hfin : (List.range sub.elem.numSites).map (fun k =>
          finalOnsite gs (N (sub.sysStart + k)) (fun i j => cast (entry (S (sub.sysStart + k)) i j))
            (posAt (sub.sysStart + k)))
      = ((List.replicate sub.elem.numSites fun i j => cast (entry m i j)).zip
          ((List.range sub.elem.numSites).map fun k => posAt (sub.sysStart + k))).map
            fun x => finalOnsite gs nm x.1 x.2 := by
    apply List.ext_getElem?
    intro k
    by_cases hk : k < sub.elem.numSites
    · obtain ⟨e1, e2⟩ := hS k hk
      have hz : ((List.replicate sub.elem.numSites fun i j => cast (entry m i j)).zip
          ((List.range sub.elem.numSites).map fun k => posAt (sub.sysStart + k)))[k]?
          = some ((fun i j => cast (entry m i j)), posAt (sub.sysStart + k)) := by
        apply (List.getElem?_zip_eq_some (z := ((fun i j => cast (entry m i j)), posAt (sub.sysStart + k)))).2
        refine ⟨by simp [List.getElem?_replicate, hk], by simp [hk]⟩
      rw [List.getElem?_map, List.getElem?_map, hz, List.getElem?_range hk]
      simp only [Option.map_some, e1, e2]
    · rw [List.getElem?_eq_none (by simp; omega), List.getElem?_eq_none (by simp; omega)]
  unfold onsiteData
  rw [hint]
  simp only [Res.bind_ok]
  split
  · rename_i hemp
    have hnil : mods = [] := by simpa using hemp
    have hg := hch _ (iters_elem hsub)
    rw [hnil] at hg
    cases hg
    rw [hfin]
    congr 2
    exact (List.map_fst_zip (by simp)).symm
  · have hseg : segment s.positions sub.sysStart sub.elem.numSites
        = .ok ((List.range sub.elem.numSites).map fun k => posAt (sub.sysStart + k)) := by
      unfold segment
      have hlen : sub.sysStart + sub.elem.numSites ≤ s.positions.length := by
        have h1 := Sublat.iters_sysEnd_le s.sublattices 0 0 sub hsub
        have h2 := Sublat.length_tableNorbs s.sublattices
        rw [Sublat.decompressedSize_eq] at h2
        have h3 : (tableNorbs s.sublattices).length ≤ s.positions.length := by
          rcases Nat.eq_zero_or_pos (tableNorbs s.sublattices).length with h | h
          · omega
          · have := (List.getElem?_eq_some_iff.1 (hpos _ (Nat.sub_lt h Nat.one_pos))).1
            omega
        unfold Sublat.It.sysEnd at h1
        unfold Sublat.It.sysStart
        omega
      rw [if_pos hlen]
      congr 1
      apply List.ext_getElem?
      intro k
      by_cases hk : k < sub.elem.numSites
      · rw [List.getElem?_take_of_lt hk, List.getElem?_drop, hpos _ (hsite k hk).2.2.2.2]
        simp [hk]
      · rw [List.getElem?_eq_none (by simp; omega), List.getElem?_eq_none (by simp; omega)]
    rw [hseg, hnm]
    simp only [Res.bind_ok]
    rw [runOnsite_chain sub.elem.numOrb mods gs (hch _ (iters_elem hsub)) nm _ _ (by simp), hfin]

/-- The onsite calls, site by site. -/
theorem applyToOnsite_spec [Zero C] [DecidableEq C] [Zero K] [DecidableEq K] (cast : C → K) (hc0 : cast 0 = 0)
    (s : System C P) (mods : Modifiers K P) (gs : List (OnsiteFn K P)) (S : Nat → Mat C) (N : Nat → String)
    (hok : SitesOK s S N) (posAt : Nat → P)
    (hpos : ∀ k, k < (tableNorbs s.sublattices).length → s.positions[k]? = some (posAt k))
    (hch : ∀ e ∈ s.sublattices, OnsiteChain e.numOrb mods.onsite gs) :
    ∃ calls, applyToOnsite cast s mods = .ok calls ∧
      calls.Perm ((List.range (tableNorbs s.sublattices).length).flatMap
        (siteCalls cast (tableNorbs s.sublattices) posAt gs S N)) := by
  have hloop : ∀ subs : List It, (∀ sub ∈ subs, sub ∈ iters s.sublattices) →
      ∃ calls, onsiteLoop cast s mods.onsite (hasNonzeroEnergy s.siteRegistry) subs = .ok calls ∧
        calls.Perm (subs.flatMap fun sub => (List.range sub.elem.numSites).flatMap fun k =>
          siteCalls cast (tableNorbs s.sublattices) posAt gs S N (sub.sysStart + k)) := by
    intro subs
    induction subs with
    | nil => intro _; exact ⟨[], rfl, by simp⟩
    | cons sub subs ih =>
      intro hmem
      obtain ⟨calls, e1, p1⟩ := ih fun x hx => hmem x (List.mem_cons_of_mem _ hx)
      have hsub := hmem sub List.mem_cons_self
      have hd := onsiteData_spec cast hc0 s mods.onsite gs S N hok posAt hpos hch sub hsub
      refine ⟨_, by rw [onsiteLoop, hd, Res.bind_ok, e1]; rfl, ?_⟩
      rw [List.flatMap_cons]
      refine List.Perm.append ?_ p1
      refine (emit_onsite_perm sub _ (by simp)).trans (List.Perm.of_eq ?_)
      have hz : ∀ (l : List Nat) (F : Nat → (Nat → Nat → K)) (G : Nat × (Nat → Nat → K) → List (Call K)),
          ((l.zip (l.map F)).flatMap G) = l.flatMap fun k => G (k, F k) := by
        intro l F G
        induction l with
        | nil => rfl
        | cons x l ih => simp only [List.map_cons, List.zip_cons_cons, List.flatMap_cons, ih]
      rw [hz, List.flatMap_def, List.flatMap_def]
      congr 1
      apply List.map_congr_left
      intro k hk
      obtain ⟨-, -, h3, h4⟩ := iters_site s.sublattices 0 0 sub hsub k (List.mem_range.1 hk)
      rw [Nat.sub_zero, Nat.zero_add] at h4
      rw [Nat.sub_zero] at h3
      unfold siteCalls
      rw [List.getD_eq_getElem?_getD, h3]
      simp only [Option.getD_some]
      congr 1
      funext i j
      unfold place
      rw [h4]
      simp only [Prod.mk.injEq, Int.natCast_inj]
      omega
  have hall := hloop (iters s.sublattices) fun _ h => h
  rw [iters, flatMap_iters] at hall
  simp only [Nat.zero_add] at hall
  unfold applyToOnsite
  simp only
  split
  · rename_i hnone
    refine ⟨[], rfl, ?_⟩
    have hz : (List.range (tableNorbs s.sublattices).length).flatMap
        (siteCalls cast (tableNorbs s.sublattices) posAt gs S N) = [] := by
      rw [List.flatMap_eq_nil_iff]
      intro k hk
      have hk' := List.mem_range.1 hk
      have hlab : k < (tableLabels s.sublattices).length := by
        rw [Sublat.length_tableLabels, ← Sublat.length_tableNorbs]; exact hk'
      obtain ⟨e1, -⟩ := hok.energy k ((tableLabels s.sublattices)[k]) (by
        rw [Sublat.decompressed_eq, List.getElem?_map, List.getElem?_eq_getElem hlab]; rfl)
      have hgs : gs = [] := by
        have hnil : mods.onsite = [] := by simpa using hnone.2
        have : s.sublattices ≠ [] := by
          intro h; rw [h] at hk'; simp [tableNorbs] at hk'
        obtain ⟨e, t, he⟩ := List.exists_cons_of_ne_nil this
        have hg := hch e (by rw [he]; exact List.mem_cons_self)
        rw [hnil] at hg
        cases hg
        rfl
      subst hgs
      unfold siteCalls elemCalls finalOnsite
      rw [List.flatMap_eq_nil_iff]
      intro i _
      rw [List.flatMap_eq_nil_iff]
      intro j _
      exact if_pos (show cast (entry (S k) i j) = 0 by rw [zero_energy hnone.1 e1, hc0])
    rw [hz]
  · exact hall

/-! ## Sums -/

theorem sum_eq_of_unique [AddCommMonoid K] {l : List Nat} {f : Nat → K} (a : Nat) (ha : a ∈ l)
    (hnd : l.Nodup) (h : ∀ x ∈ l, x ≠ a → f x = 0) : (l.map f).sum = f a := by
  induction l with
  | nil => simp at ha
  | cons x l ih =>
    rw [List.nodup_cons] at hnd
    rw [List.map_cons, List.sum_cons]
    by_cases hx : x = a
    · subst hx
      rw [List.sum_eq_zero (l := l.map f), add_zero]
      intro y hy
      obtain ⟨z, hz, rfl⟩ := List.mem_map.1 hy
      exact h z (List.mem_cons_of_mem _ hz) (fun e => hnd.1 (e ▸ hz))
    · rw [h x List.mem_cons_self hx, zero_add, ih (by
        rcases List.mem_cons.1 ha with e | e
        · exact absurd e.symm hx
        · exact e) hnd.2 fun y hy => h y (List.mem_cons_of_mem _ hy)]

/-- The contribution of one pair of sites to a matrix element. -/
theorem callSum_place [AddCommMonoid K] [DecidableEq K] (norbs : List Nat) (c : COO) (e : Nat → Nat → K)
    (a b i j : Nat) (hi : i < norbs.getD a 0) (hj : j < norbs.getD b 0) :
    callSum (elemCalls (place norbs c) (norbs.getD c.row 0) (norbs.getD c.col 0) e)
      ((firstRow norbs a + i : Nat) : Int) ((firstRow norbs b + j : Nat) : Int)
      = if c = ⟨a, b⟩ then e i j else 0 := by
  rw [callSum_elemCalls]
  have hpl : ∀ i' j', i' < norbs.getD c.row 0 → j' < norbs.getD c.col 0 →
      (place norbs c i' j' = (((firstRow norbs a + i : Nat) : Int), ((firstRow norbs b + j : Nat) : Int))
        ↔ c = ⟨a, b⟩ ∧ i' = i ∧ j' = j) := by
    intro i' j' hi' hj'
    constructor
    · intro h
      exact place_inj (d := ⟨a, b⟩) hi' hj' hi hj h
    · rintro ⟨rfl, rfl, rfl⟩; rfl
  split
  · rename_i hc
    subst hc
    rw [sum_eq_of_unique i (by simpa using hi) List.nodup_range]
    · rw [sum_eq_of_unique j (by simpa using hj) List.nodup_range]
      · exact if_pos rfl
      · intro j' hj' hne
        rw [if_neg]
        intro h
        exact hne ((hpl i j' hi (by simpa using hj')).1 h).2.2
    · intro i' hi' hne
      apply List.sum_eq_zero
      intro x hx
      obtain ⟨j', hj', rfl⟩ := List.mem_map.1 hx
      rw [if_neg]
      intro h
      exact hne ((hpl i' j' (by simpa using hi') (by simpa using hj')).1 h).2.1
  · rename_i hc
    apply List.sum_eq_zero
    intro x hx
    obtain ⟨i', hi', rfl⟩ := List.mem_map.1 hx
    apply List.sum_eq_zero
    intro x hx
    obtain ⟨j', hj', rfl⟩ := List.mem_map.1 hx
    rw [if_neg]
    intro h
    exact hc ((hpl i' j' (by simpa using hi') (by simpa using hj')).1 h).1

end Verif.Hamiltonian
