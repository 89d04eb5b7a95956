import Verif.Pipeline.Props
import Verif.Pipeline.Props2
import Verif.Pipeline.PropsField
import Verif.Pipeline.PropsRepository
import Verif.Kpm.PropsResolvent
import Verif.Kpm.PropsConvergence

/-!
# C95: from the definition of a lattice to Green's functions and densities of states
-/

namespace Verif.Pipeline.EndToEnd

open Verif.Lattice (Sublattice HoppingFamily HoppingTerm Registry CellSite CellHopping Inv optimizedUnitCell)
open Verif.Lattice.Lattice (run empty allTerms)
open Verif.Foundation (Dims CellOK size sites locOf rank validPairs cellAt crystalSite popOps)
open Verif.Sublat (tableNorbs hamiltonianSize)
open Verif.Sublat.Spec (firstRow)
open Verif.Hamiltonian
open Verif.Symmetry (Periods Supported Short InArea)
open Verif.Hopping (Csr)
open Verif.Kpm
open Verif.Numeric

variable {L P : Type} [AddGroup P]

/-- Specification: `T` is the textbook tight-binding matrix of the sites `valid` of a lattice.  Its element between orbital `i` of site `k` and orbital `j` of site
`k'` is the onsite energy (if `k = k'`) plus the sum of all hoppings which lead from `k` to a periodic copy of `k'`, with the phase of the translation, plus the
conjugate of those in reverse. -/
def Textbook (ops : List (Lattice.Lattice.Op ℂ L)) (d : Dims) (p : Periods) (cell : List CellSite) (valid : List Bool) (pos : Nat → P) (norbs : List Nat)
    (gs : List (ElemFn ℂ P)) (gos : List (OnsiteFn ℂ P)) (phase : P → ℂ) (shiftOf : Index3 → P) {N : Nat} (T : Matrix (Fin N) (Fin N) ℂ) : Prop :=
  ∀ k k' ck ck', valid[k]? = some true → valid[k']? = some true → crystalSite d cell k = some ck → crystalSite d cell k' = some ck' →
    ∀ sub sub' root, (run ops empty).subs[ck.2.uniqueId]? = some sub → (run ops empty).subs[ck'.2.uniqueId]? = some sub' →
      (run ops empty).subs[sub.2.aliasId]? = some root →
      ∀ i j, i < sub.2.energy.rows → j < sub'.2.energy.rows → ∀ a b : Fin N,
        a.val = firstRow norbs ((valid.take k).count true) + i → b.val = firstRow norbs ((valid.take k').count true) + j →
        T a b = (if k = k' then finalOnsite gos root.1 (fun i j => entry sub.2.energy i j) (pos k) i j else 0)
          + blochSum id gs phase shiftOf p (run ops empty).hops (ck.1, ck.2.uniqueId) (ck'.1, ck'.2.uniqueId) (pos k) (pos k') i j
          + star (blochSum id gs phase shiftOf p (run ops empty).hops (ck'.1, ck'.2.uniqueId) (ck.1, ck.2.uniqueId) (pos k') (pos k) j i)

/-- Specification: every orbital is reached from orbital `a` by following elements of the matrix which are not zero. -/
def Connected {N : Nat} (T : Matrix (Fin N) (Fin N) ℂ) (a : Fin N) : Prop := ∀ b, Relation.ReflTransGen (fun i j => T i j ≠ 0) a b

theorem reach_of_connected {N : Nat} {m : Csr ℂ} {a : Fin N} (h : Connected (matrixOf N m) a) (b : Fin N) : Reach m a b := by
  have hb := h b
  induction hb with
  | refl => exact .refl
  | @tail i j _ hij ih =>
    refine .tail ih ?_
    unfold Adj
    by_contra hc
    push Not at hc
    apply hij
    show coeff m i j = 0
    unfold coeff
    rw [List.filter_eq_nil_iff.2]
    · rfl
    · intro e he
      simp only [decide_eq_true_eq]
      intro h0
      exact hc e.2 (by rw [← h0]; exact he)

section
variable (ops : List (Lattice.Lattice.Op ℂ L)) (subs : List (String × Sublattice ℂ L))
  (hops : List (String × HoppingFamily ℂ))
  (hs : subs.Perm (run ops empty).subs) (hh : hops.Perm (run ops empty).hops)
  (ha : AliasesOK (run ops empty)) (d : Dims) (p : Periods) (valid : List Bool)
  (hl : valid.length = (sites d subs.length).length) (hf : enabled p = true → Symmetry.Fits d p)
  (pos : Nat → P) (junk : P) (shiftOf : Index3 → P) (s : System ℂ P)
  (hsys : makeSystem subs hops d p valid pos junk shiftOf = .ok s)
include hs hh ha hl hf hsys

/-- Every row of the Hamiltonian belongs to an orbital of a site. -/
theorem row_site {cell : List CellSite} (hcell : optimizedUnitCell subs hops = .ok cell) (r : Nat) (hr : r < hamiltonianSize s.sublattices) :
    ∃ k ck sub root i, valid[k]? = some true ∧ crystalSite d cell k = some ck ∧ (run ops empty).subs[ck.2.uniqueId]? = some sub ∧
      (run ops empty).subs[sub.2.aliasId]? = some root ∧ i < sub.2.energy.rows ∧
      r = firstRow (tableNorbs s.sublattices) ((valid.take k).count true) + i := by
  obtain ⟨sr, hr', cell', bs, hcell', hP, hl', -, hseq, -⟩ := system_cases ops subs hops hs hh ha d p valid hl hf pos junk shiftOf s hsys
  rw [hcell, Res.ok.injEq] at hcell'
  subst hcell'
  have hsub : s.sublattices = Sublat.runAdds (popOps d cell valid) := by rw [hseq]; rfl
  have htab := tableNorbs_pop (valid := valid) hP.cellOK hl'
  have hsize : hamiltonianSize s.sublattices = (tableNorbs s.sublattices).sum := by
    exact Sublat.hamiltonianSize_eq _
  rw [hsize] at hr
  obtain ⟨i, hi, e⟩ := Field.siteOf_spec _ r hr
  have hlt := Field.siteOf_lt _ r hr
  obtain ⟨k, hk, hrank⟩ : ∃ k, valid[k]? = some true ∧ rank valid k = Field.siteOf (tableNorbs s.sublattices) r := by
    refine validPairs_get' ?_
    rw [hsub, htab, List.length_map, Foundation.popOps_length] at hlt
    rwa [hsub, htab]
  obtain ⟨c, hc, hcm⟩ := cellAt_some hl' hk
  obtain ⟨sub, root, g1, g2, -, -, -, g3, -⟩ := hP.siteAt hl' pos [] hk hc hcm
  refine ⟨k, ((locOf d k).idx, c), sub, root, i, hk, by unfold crystalSite; rw [hc]; rfl, g1, g2, ?_, ?_⟩
  · rw [g3]
    rw [← hrank, hsub, List.getD_eq_getElem?_getD, norb_at hP.cellOK hl' hk hc] at hi
    exact hi
  · rw [← hrank] at e
    exact e

/-- **C95** (matrix).  The Hamiltonian of a model made from a lattice is the textbook matrix, and the only one. -/
theorem C95_matrix (hshort : enabled p = true → ∀ q ∈ allTerms (run ops empty).hops, Short p q.2.rel)
    (hin : enabled p = true → InArea d p subs.length valid) (mods : Modifiers ℂ P) (gs : List (ElemFn ℂ P)) (gos : List (OnsiteFn ℂ P)) (maxBuffer : Nat)
    (phase : P → ℂ) (hph : phase 0 = 1) (hsh : shiftOf Index3.zero = 0) (simple : Bool) (hbuf : ∀ q ∈ hops, q.2.energy.size ≤ maxBuffer)
    (hch : ∀ r c, Chain r c mods.hopping gs) (hon : ∀ n, OnsiteChain n mods.onsite gos) (hmods : ∀ f ∈ mods.onsite, KeepsHermitian f) :
    ∃ cell m, optimizedUnitCell subs hops = .ok cell ∧ make id s mods maxBuffer phase simple = .ok m ∧ Sorted (hamiltonianSize s.sublattices) m ∧
      (matrixOf (hamiltonianSize s.sublattices) m).IsHermitian ∧
      ∀ T : Matrix (Fin (hamiltonianSize s.sublattices)) (Fin (hamiltonianSize s.sublattices)) ℂ,
        Textbook ops d p cell valid pos (tableNorbs s.sublattices) gs gos phase shiftOf T ↔ T = matrixOf (hamiltonianSize s.sublattices) m := by
  obtain ⟨cell, m, h1, h2, h3, h4⟩ := C50_bloch ops subs hops hs hh ha d p valid hl hf pos junk shiftOf s hsys id rfl hshort hin mods gs gos maxBuffer phase hph hsh
    simple hbuf hch hon
  obtain ⟨h5, -⟩ := C21_lattice ops subs hops hs hh ha d p valid hl hf pos junk shiftOf s hsys id (fun _ => rfl) mods maxBuffer phase simple hmods m h2
  refine ⟨cell, m, h1, h2, h3, ?_, fun T => ⟨fun hT => ?_, ?_⟩⟩
  · ext a b
    exact (h5 a b).symm
  · ext a b
    obtain ⟨k, ck, sub, root, i, k1, k2, k3, k4, k5, k6⟩ := row_site ops subs hops hs hh ha d p valid hl hf pos junk shiftOf s hsys h1 a.val a.2
    obtain ⟨k', ck', sub', root', j, l1, l2, l3, l4, l5, l6⟩ := row_site ops subs hops hs hh ha d p valid hl hf pos junk shiftOf s hsys h1 b.val b.2
    obtain ⟨u, u', w, q1, q2, q3, q4⟩ := h4 k k' ck ck' k1 l1 k2 l2
    rw [k3] at q1; rw [l3] at q2
    cases q1; cases q2
    rw [k4] at q3
    cases q3
    rw [hT k k' ck ck' k1 l1 k2 l2 _ _ _ k3 l3 k4 i j k5 l5 a b k6 l6]
    show _ = coeff m a.val b.val
    rw [k6, l6]
    exact (q4 i j k5 l5).symm
  · rintro rfl
    intro k k' ck ck' k1 l1 k2 l2 sub sub' root k3 l3 k4 i j k5 l5 a b k6 l6
    obtain ⟨u, u', w, q1, q2, q3, q4⟩ := h4 k k' ck ck' k1 l1 k2 l2
    rw [k3] at q1; rw [l3] at q2
    cases q1; cases q2
    rw [k4] at q3
    cases q3
    show coeff m a.val b.val = _
    rw [k6, l6]
    exact q4 i j k5 l5

/-- **C95** (Green's function).  For every lattice built through the API, shape, periods, modifiers and wave vector: the Green's functions calculated by KPM with the Lorentz
kernel, for bounds which enclose the spectrum of the textbook matrix, approximate the exact resolvent of the textbook matrix; for every matrix format and choice of algorithms
(reordering needs a connected system). -/
theorem C95_greens (hshort : enabled p = true → ∀ q ∈ allTerms (run ops empty).hops, Short p q.2.rel)
    (hin : enabled p = true → InArea d p subs.length valid) (mods : Modifiers ℂ P) (gs : List (ElemFn ℂ P)) (gos : List (OnsiteFn ℂ P)) (maxBuffer : Nat)
    (phase : P → ℂ) (hph : phase 0 = 1) (hsh : shiftOf Index3.zero = 0) (simple : Bool) (hbuf : ∀ q ∈ hops, q.2.energy.size ≤ maxBuffer)
    (hch : ∀ r c, Chain r c mods.hopping gs) (hon : ∀ n, OnsiteChain n mods.onsite gos) (hmods : ∀ f ∈ mods.onsite, KeepsHermitian f) :
    ∃ cell m, optimizedUnitCell subs hops = .ok cell ∧ make id s mods maxBuffer phase simple = .ok m ∧
      ∀ T : Matrix (Fin (hamiltonianSize s.sublattices)) (Fin (hamiltonianSize s.sublattices)) ℂ,
        Textbook ops d p cell valid pos (tableNorbs s.sublattices) gs gos phase shiftOf T →
        ∀ U E, Eigen T U E → ∀ min max : ℝ, min < max → (∀ j, min ≤ E j ∧ E j ≤ max) →
        ∃ sc, Scale.ofBounds min max = .ok sc ∧ (T ≠ (sc.b : ℂ) • 1 →
          ∀ (row : Fin (hamiltonianSize s.sublattices)) (cfg : AlgorithmConfig), (cfg.reorder = true → Connected T row) →
          ∀ f : Format ℂ (hamiltonianSize s.sublattices) ℂ, f.Aligned → ∀ (lambda : ℝ) (g : Nat → Nat → ℝ), 0 < lambda → lorentz lambda = .ok g →
          ∀ broadening : ℝ, 0 < broadening → ∀ fuel, 4 ≤ fuel →
          ∃ num : Nat, requiredNumMoments fuel lambda (broadening / sc.a) = .ok (some num) ∧ lambda / num < broadening / sc.a ∧
            ∀ (cols : List (Fin (hamiltonianSize s.sublattices))), cols ≠ [] → ∀ (junk : Nat → ℂ) (energy : ℝ), -1 < sc.apply energy ∧ sc.apply energy < 1 →
              ∃ (z w : ℂ) (G : Matrix (Fin (hamiltonianSize s.sublattices)) (Fin (hamiltonianSize s.sublattices)) ℂ) (v : Fin (hamiltonianSize s.sublattices) → ℂ),
                IsGreens T z G ∧ 0 < z.im ∧ ‖z - energy‖ ≤ sc.a * (Real.exp (broadening / sc.a) - 1) ∧
                ‖w - 1‖ ≤ (Real.exp (broadening / sc.a) - 1) / Real.sqrt (1 - sc.apply energy * sc.apply energy) ∧
                coreGreens f cfg g sc m num row (cols.map (·.val)) junk energy = .ok (cols.map v) ∧
                ∀ c, ‖v c - w * G c row‖ ≤ 2 / (sc.a * Real.sqrt (1 - sc.apply energy * sc.apply energy)) * (Real.exp (-lambda) / Real.tanh (lambda / num / 2))) := by
  obtain ⟨cell, m, h1, h2, h3, h4, h5⟩ := C95_matrix ops subs hops hs hh ha d p valid hl hf pos junk shiftOf s hsys hshort hin mods gs gos maxBuffer phase hph hsh simple
    hbuf hch hon hmods
  refine ⟨cell, m, h1, h2, fun T hT U E hE min max hb hspec => ?_⟩
  obtain rfl := (h5 T).1 hT
  obtain ⟨sc, es, ha', hins, -⟩ := C33_scaled_inside hb
  refine ⟨sc, es, fun hne row cfg hconn f hform lambda g hlam hg broadening hbr fuel hfuel => ?_⟩
  exact C91_greens ⟨ha', h3, h4, hne, fun hr i => reach_of_connected (hconn hr) i⟩ hE (fun j => hins _ (hspec j).1 (hspec j).2) hform hlam hg hbr fuel hfuel

/-- **C95** (local density of states).  For every lattice built through the API, shape, periods, modifiers and wave vector: the result of `calc_ldos` with the Jackson kernel,
for bounds which enclose the spectrum of the textbook matrix, belongs to a site of the shape which is nearest to the position among those with the label, and its integral
against any function with Lipschitz constant `lip` differs by at most `lip` times the broadening (times the number of orbitals) from the sum over all eigenstates of the textbook
matrix of their probability at this site, times the function at their energy.  This holds for any number of threads, schedule and choice of algorithms. -/
theorem C95_ldos (hshort : enabled p = true → ∀ q ∈ allTerms (run ops empty).hops, Short p q.2.rel)
    (hin : enabled p = true → InArea d p subs.length valid) (mods : Modifiers ℂ P) (gs : List (ElemFn ℂ P)) (gos : List (OnsiteFn ℂ P)) (maxBuffer : Nat)
    (phase : P → ℂ) (hph : phase 0 = 1) (hsh : shiftOf Index3.zero = 0) (simple : Bool) (hbuf : ∀ q ∈ hops, q.2.energy.size ≤ maxBuffer)
    (hch : ∀ r c, Chain r c mods.hopping gs) (hon : ∀ n, OnsiteChain n mods.onsite gos) (hmods : ∀ f ∈ mods.onsite, KeepsHermitian f) :
    ∃ cell m, optimizedUnitCell subs hops = .ok cell ∧ make id s mods maxBuffer phase simple = .ok m ∧
      ∀ T : Matrix (Fin (hamiltonianSize s.sublattices)) (Fin (hamiltonianSize s.sublattices)) ℂ,
        Textbook ops d p cell valid pos (tableNorbs s.sublattices) gs gos phase shiftOf T →
        ∀ U E, Eigen T U E → ∀ min max : ℝ, min < max → (∀ j, min ≤ E j ∧ E j ≤ max) →
        ∃ sc, Scale.ofBounds min max = .ok sc ∧ (T ≠ (sc.b : ℂ) • 1 →
          ∀ (dist : Nat → ℝ) (target : Option Int),
          (∀ t ∈ target, ∃ k ck, valid[k]? = some true ∧ crystalSite d cell k = some ck ∧ (ck.2.aliasId : Int) = t) →
          ∀ (cfg : AlgorithmConfig), (cfg.reorder = true → ∀ row, Connected T row) →
          ∀ f : Format ℂ (hamiltonianSize s.sublattices) ℂ, f.Aligned → ∀ broadening : ℝ, 0 < broadening → ∀ fuel, 4 ≤ fuel →
          ∃ num : Nat, requiredNumMoments fuel Real.pi (broadening / sc.a) = .ok (some num) ∧
            ∀ {W bs : Nat}, 0 < W → 0 < bs → ∀ (junk : Nat → ℂ) (result : ℝ → ℝ),
              (∀ e, sc.b - sc.a < e → e < sc.b + sc.a →
                CalcLdos f cfg jackson sc m num W bs junk s.sublattices (valid.count true) dist target true e (.ok [result e])) →
              ∃ k ck norb, ∃ orbital : Fin norb → Fin (hamiltonianSize s.sublattices), valid[k]? = some true ∧ crystalSite d cell k = some ck ∧ norb = ck.2.norb ∧
                (∀ t ∈ target, (ck.2.aliasId : Int) = t) ∧
                (∀ k' ck', valid[k']? = some true → crystalSite d cell k' = some ck' → (∀ t ∈ target, (ck'.2.aliasId : Int) = t) →
                  dist ((valid.take k).count true) ≤ dist ((valid.take k').count true)) ∧
                (∀ i, (orbital i).val = firstRow (tableNorbs s.sublattices) ((valid.take k).count true) + i.val) ∧
                ∀ (lip : ℝ) (φ : ℝ → ℝ), 0 ≤ lip → LipschitzOn sc lip φ →
                  |(∫ e in (sc.b - sc.a)..(sc.b + sc.a), φ e * result e) - ∑ i, ∑ j, Complex.normSq (U (orbital i) j) * φ (E j)| ≤ lip * broadening * norb) := by
  obtain ⟨cell, m, h1, h2, h3, h4, h5⟩ := C95_matrix ops subs hops hs hh ha d p valid hl hf pos junk shiftOf s hsys hshort hin mods gs gos maxBuffer phase hph hsh simple
    hbuf hch hon hmods
  refine ⟨cell, m, h1, h2, fun T hT U E hE min max hb hspec => ?_⟩
  obtain rfl := (h5 T).1 hT
  obtain ⟨sr, hr', cell', bs', hcell', hP, hl', -, hseq, -⟩ := system_cases ops subs hops hs hh ha d p valid hl hf pos junk shiftOf s hsys
  rw [h1, Res.ok.injEq] at hcell'
  subst hcell'
  have hsub : s.sublattices = Sublat.runAdds (popOps d cell valid) := by rw [hseq]; rfl
  have hone := Foundation.count_one (d := d) (cell := cell) (valid := valid) hl'
  have hnorbs : Sublat.Spec.norbs (popOps d cell valid) = (popOps d cell valid).map (·.norb) := Foundation.flatMap_replicate_one _ _ _ hone
  have hlabels : Sublat.Spec.labels (popOps d cell valid) = (popOps d cell valid).map (·.id) := Foundation.flatMap_replicate_one _ _ _ hone
  have htab := tableNorbs_pop (valid := valid) hP.cellOK hl'
  have hnlen : (Sublat.Spec.norbs (popOps d cell valid)).length = valid.count true := by rw [hnorbs, List.length_map, Foundation.popOps_length]
  have hcount : valid.count true ≠ 0 := by
    intro h0
    obtain ⟨_, _, cell'', c1, -, c3⟩ := makeSystem_eq (P := P) ops subs hops hs hh ha
    rw [h1, Res.ok.injEq] at c1
    subst c1
    obtain ⟨_, -, c4, -⟩ := c3 d p valid hl' hf pos junk shiftOf
    rw [hsys, if_pos h0] at c4
    cases c4
  obtain ⟨sc, es, ha', hins, -⟩ := C33_scaled_inside hb
  refine ⟨sc, es, fun hne dist target htar cfg hconn f hform broadening hbr fuel hfuel => ?_⟩
  have hsize : hamiltonianSize s.sublattices = (Sublat.Spec.norbs (popOps d cell valid)).sum := by
    rw [Sublat.hamiltonianSize_eq, hsub, htab, hnorbs]
  obtain ⟨num, n1, n2⟩ := C85_ldos (popOps d cell valid) (Foundation.popOps_consistent hP.cellOK hl') (by rw [hnlen]; exact Foundation.popOps_verify hP.cellOK hl')
    (by
      intro k hk
      rw [hnorbs, List.mem_map] at hk
      obtain ⟨o, ho, rfl⟩ := hk
      obtain ⟨c, hc, rfl⟩ := Foundation.mem_popOps hl' ho
      obtain ⟨_, -, -, -, hpos, -⟩ := hP.cellSub c hc
      exact hpos) dist target
    (by
      intro t ht
      obtain ⟨k, ck, k1, k2, rfl⟩ := htar t ht
      unfold crystalSite at k2
      rw [Option.map_eq_some_iff] at k2
      obtain ⟨c, hc, rfl⟩ := k2
      rw [hlabels, List.mem_map]
      exact ⟨_, List.mem_of_getElem? (popOps_get hl' k1 hc), rfl⟩)
    (by
      intro h0
      rw [h0] at hnlen
      exact hcount hnlen.symm)
    hsize (fun first => ⟨ha', h3, h4, hne, fun hr i => reach_of_connected (hconn hr first) i⟩) hform hb es hE hspec hbr fuel hfuel
  refine ⟨num, n1, ?_⟩
  intro W bs hW hbs junk' result hres
  obtain ⟨i, norb, orbital, o1, o2, o3, o4, o5⟩ := n2 hW hbs junk' result (by
    intro e e1 e2
    rw [hnlen, ← hsub]
    exact hres e e1 e2)
  have hi : i < valid.count true := by rw [← hnlen]; exact (List.getElem?_eq_some_iff.1 o1).1
  obtain ⟨k, hk, rfl⟩ := validPairs_get' hi
  obtain ⟨c, hc, hcm⟩ := cellAt_some hl' hk
  have hcs : ∀ k c, cellAt d cell k = some c → crystalSite d cell k = some ((locOf d k).idx, c) := by
    intro k c hc
    unfold crystalSite
    rw [hc]; rfl
  have hlab : ∀ k c, valid[k]? = some true → cellAt d cell k = some c → (Sublat.Spec.labels (popOps d cell valid))[rank valid k]? = some (c.aliasId : Int) := by
    intro k c hk hc
    rw [hlabels, List.getElem?_map, popOps_get hl' hk hc]; rfl
  refine ⟨k, _, norb, orbital, hk, hcs k c hc, ?_, ?_, ?_, ?_, o5⟩
  · rw [hnorbs, List.getElem?_map, popOps_get hl' hk hc] at o1
    simpa using o1.symm
  · intro t ht
    have := o2 t ht
    rw [hlab k c hk hc] at this
    simpa using this
  · intro k' ck' k1 k2 k3
    unfold crystalSite at k2
    rw [Option.map_eq_some_iff] at k2
    obtain ⟨c', hc', rfl⟩ := k2
    refine o3 (rank valid k') ?_ fun t ht => ?_
    · rw [hnlen]
      have := List.getElem?_eq_some_iff.1 (popOps_get hl' k1 hc')
      obtain ⟨h, -⟩ := this
      rwa [Foundation.popOps_length] at h
    · rw [hlab k' c' k1 hc', ← k3 t ht]
  · intro i
    rw [o4, hsub, htab, hnorbs]
    rfl

end

/-! ## Example -/

open Verif.Pipeline.Repository (monolayer run_monolayer1 no_aliases) in
/-- The hypotheses hold for a flake of graphene: six cells with one site removed.  (Eigenvectors exist by `exists_eigen`, and bounds since the spectrum is finite.) -/
example (onsite : ℝ × ℝ) : ∃ calls s cell m, monolayer 1 onsite (-2.8) 0 0 = .ok calls ∧
    makeSystem (run calls empty).subs (run calls empty).hops ⟨3, 2, 1⟩ ⟨none, none, none⟩ (false :: List.replicate 11 true) (fun k => ((k : ℝ), (0 : ℝ))) 0 (fun _ => 0) = .ok s ∧
    make id s ⟨[], []⟩ 100 (fun _ => 1) true = .ok m ∧
    ∃ T : Matrix (Fin (hamiltonianSize s.sublattices)) (Fin (hamiltonianSize s.sublattices)) ℂ,
      Textbook calls ⟨3, 2, 1⟩ ⟨none, none, none⟩ cell (false :: List.replicate 11 true) (fun k => ((k : ℝ), (0 : ℝ))) (tableNorbs s.sublattices) [] [] (fun _ => 1) (fun _ => 0) T ∧
      ∃ U E min max, Eigen T U E ∧ min < max ∧ ∀ j, min ≤ E j ∧ E j ≤ max := by
  obtain ⟨calls, h1, h2⟩ := run_monolayer1 1 (by norm_num) onsite (-2.8) 0 0
  have hal : AliasesOK (run calls empty) := by rw [h2]; exact no_aliases (by simp)
  have hlen : (run calls empty).subs.length = 2 := by rw [h2]; rfl
  have hdis : ¬ enabled ⟨none, none, none⟩ = true := by decide
  obtain ⟨sr, hr, cell, -, hP, h3⟩ := makeSystem_eq (P := ℝ × ℝ) calls (run calls empty).subs (run calls empty).hops (.refl _) (.refl _) hal
  obtain ⟨bs, -, b2, -⟩ := h3 ⟨3, 2, 1⟩ ⟨none, none, none⟩ (false :: List.replicate 11 true) (by rw [hP.cellLen, hlen]; rfl) (fun h => absurd h hdis)
    (fun k => ((k : ℝ), (0 : ℝ))) 0 (fun _ => 0)
  rw [if_neg (by decide)] at b2
  obtain ⟨cell', m, c1, c2, -, c4, c5⟩ := C95_matrix calls _ _ (.refl _) (.refl _) hal ⟨3, 2, 1⟩ ⟨none, none, none⟩ (false :: List.replicate 11 true)
    (by rw [hlen]; rfl) (fun h => absurd h hdis) _ _ _ _ b2 (fun h => absurd h hdis) (fun h => absurd h hdis) ⟨[], []⟩ [] [] 100 (fun _ => 1) rfl rfl true
    (by rw [h2]; simp [Mat.size, Mat.scalar]) (fun _ _ => .nil) (fun _ => .nil) (by simp)
  refine ⟨calls, _, cell', m, h1, b2, c2, _, (c5 _).2 rfl, _, _, -(1 + ∑ j, |c4.eigenvalues j|), 1 + ∑ j, |c4.eigenvalues j|, Verif.Kpm.exists_eigen c4, ?_, fun j => ?_⟩
  · have : 0 ≤ ∑ j, |c4.eigenvalues j| := Finset.sum_nonneg fun _ _ => abs_nonneg _
    linarith
  · have := Finset.single_le_sum (f := fun j => |c4.eigenvalues j|) (fun _ _ => abs_nonneg _) (Finset.mem_univ j)
    have h := abs_le.1 this
    constructor <;> linarith [h.1, h.2]

end Verif.Pipeline.EndToEnd
