import Verif.Pipeline.Reciprocal
import Verif.Pipeline.Props2
import Mathlib.LinearAlgebra.Matrix.DotProduct
import Mathlib.Algebra.Order.Round
import Mathlib.Algebra.Order.BigOperators.Ring.Finset
import Mathlib.Order.Interval.Finset.Basic
import Mathlib.Data.Int.Interval
import Mathlib.Tactic.FinCases
import Mathlib.Tactic.IntervalCases
import Mathlib.Tactic.Linarith
import Mathlib.Tactic.FieldSimp

/-!
# C79: wave vectors which differ by a reciprocal lattice vector
-/

namespace Verif.Pipeline

open Verif.Lattice (Sublattice HoppingFamily HoppingTerm Registry CellSite CellHopping Inv optimizedUnitCell)
open Verif.Lattice.Lattice (run empty allTerms)
open Verif.Foundation (Dims CellOK size sites locOf rank validPairs cellAt crystalSite hoppingsAt popOps
  siteEntries finalize)
open Verif.Sublat (tableNorbs)
open Verif.Sublat.Spec (firstRow)
open Verif.Hamiltonian
open Verif.Symmetry (Periods Short periodIndex cmul InArea)
open Verif.Hopping (COO Csr)

/-! ## The reciprocal vectors -/

theorem sum_below {n : Nat} (hn : n ≤ 3) (f : Fin 3 → ℝ) (h : ∀ c : Fin 3, ¬ c.val < n → f c = 0) :
    ∑ c, f c = ∑ c : Fin n, f (Fin.castLE hn c) := by
  have h0 := h 0
  have h1 := h 1
  have h2 := h 2
  interval_cases n <;> simp_all [Fin.sum_univ_succ]

/-- **C79** (the reciprocal vectors).  The vectors of `reciprocal_vectors` are dual to the lattice vectors; there are none (an exception) exactly if the lattice
vectors are linearly dependent in their first `n` components. -/
theorem C79_dual {n : Nat} (hn : n ≤ 3) (a : Fin n → Vec3) :
    (reciprocal hn a = .err .runtimeError ↔ (vectorMatrix hn a).det = 0) ∧
    ∀ b, reciprocal hn a = .ok b → ∀ i j, a i ⬝ᵥ b j = if i = j then 2 * Real.pi else 0 := by
  constructor
  · unfold reciprocal
    split <;> simp_all
  · intro b hb i j
    unfold reciprocal at hb
    split at hb
    · cases hb
    · rename_i hd
      rw [Res.ok.injEq] at hb
      subst hb
      rw [dotProduct, sum_below hn]
      · have hm : (vectorMatrix hn a)⁻¹ * vectorMatrix hn a = 1 := Matrix.nonsing_inv_mul _ (isUnit_iff_ne_zero.2 hd)
        have := congrFun (congrFun hm j) i
        rw [Matrix.mul_apply] at this
        have e : ∑ c : Fin n, a i (Fin.castLE hn c) * (if h : (Fin.castLE hn c).val < n then
              2 * Real.pi * ((vectorMatrix hn a)⁻¹).transpose ⟨(Fin.castLE hn c).val, h⟩ j else 0) =
            2 * Real.pi * ∑ c : Fin n, (vectorMatrix hn a)⁻¹ j c * vectorMatrix hn a c i := by
          rw [Finset.mul_sum]
          apply Finset.sum_congr rfl
          intro c _
          have : (Fin.castLE hn c).val < n := c.isLt
          simp only [this, dif_pos, Matrix.transpose_apply]
          show a i (Fin.castLE hn c) * (2 * Real.pi * (vectorMatrix hn a)⁻¹ j c) = 2 * Real.pi * ((vectorMatrix hn a)⁻¹ j c * a i (Fin.castLE hn c))
          ring
        rw [e, this, Matrix.one_apply]
        by_cases hij : i = j
        · simp [hij]
        · simp [hij, Ne.symm hij]
      · intro c hc
        simp only [hc, dif_neg, not_false_eq_true, mul_zero]

/-- **C79** (translations).  The vector of a translation by `S` cells is the combination of the lattice vectors with the components of `S`. -/
theorem C79_shift (a : Fin 3 → Vec3) (S : Index3) : shiftVec a S = (S.x : ℝ) • a 0 + (S.y : ℝ) • a 1 + (S.z : ℝ) • a 2 := by
  unfold shiftVec
  rw [Fin.sum_univ_three]
  rfl

/-- The linear combination of vectors. -/
def combine {n : Nat} (c : Fin n → ℝ) (b : Fin n → Vec3) : Vec3 := ∑ j, c j • b j

theorem combine_dot {n : Nat} (hn : n ≤ 3) (a b : Fin n → Vec3) (hb : reciprocal hn a = .ok b) (c e : Fin n → ℝ) :
    combine c b ⬝ᵥ (∑ i, e i • a i) = 2 * Real.pi * ∑ i, c i * e i := by
  have hd := (C79_dual hn a).2 b hb
  unfold combine
  rw [sum_dotProduct]
  have : ∀ j, (c j • b j) ⬝ᵥ (∑ i, e i • a i) = 2 * Real.pi * (c j * e j) := by
    intro j
    rw [dotProduct_sum, Finset.sum_eq_single j]
    · rw [smul_dotProduct, dotProduct_smul, dotProduct_comm, hd j j, if_pos rfl]
      simp only [smul_eq_mul]
      ring
    · intro i _ hij
      rw [smul_dotProduct, dotProduct_smul, dotProduct_comm, hd i j, if_neg hij]
      simp
    · intro h
      exact absurd (Finset.mem_univ j) h
  rw [Finset.sum_congr rfl fun j _ => this j, Finset.mul_sum]

theorem bloch_add (k G d : Vec3) (z : ℤ) (h : G ⬝ᵥ d = 2 * Real.pi * z) : bloch (k + G) d = bloch k d := by
  unfold bloch
  rw [add_dotProduct, h]
  have : Complex.I * ((k ⬝ᵥ d + 2 * Real.pi * z : ℝ) : ℂ) = Complex.I * ((k ⬝ᵥ d : ℝ) : ℂ) + z * (2 * Real.pi * Complex.I) := by
    push_cast
    ring
  rw [this, Complex.exp_add, Complex.exp_int_mul_two_pi_mul_I, mul_one]

theorem bloch_neg (k d : Vec3) : bloch (-k) d = star (bloch k d) := by
  unfold bloch
  rw [neg_dotProduct, Complex.star_def, ← Complex.exp_conj]
  congr 1
  simp

/-! ## The Hamiltonian -/

section
variable {C K P : Type}

theorem buildPeriodic_congr [Zero K] [Add K] [Mul K] [Star K] [DecidableEq K] [Sub P] (cast : C → K) (s : System C P) (mods : Modifiers K P)
    (maxBuffer : Nat) (phase phase' : P → K) (bs : List (Hamiltonian.Boundary P)) (h : ∀ b ∈ bs, phase b.shift = phase' b.shift) (m : Csr K) :
    buildPeriodic cast s mods maxBuffer phase bs m = buildPeriodic cast s mods maxBuffer phase' bs m := by
  induction bs generalizing m with
  | nil => rfl
  | cons b bs ih =>
    unfold buildPeriodic
    rw [h b (by simp)]
    have ih' := fun m => ih (fun b hb => h b (by simp [hb])) m
    simp only [ih']

end

theorem translations_shift (d : Dims) (cell : List CellSite) (p : Periods) :
    ∀ t ∈ Symmetry.translations d cell p, ∃ D, t.shift = cmul D (periodIndex p) := by
  have hmid : (Symmetry.area d p).middle = periodIndex p := by
    unfold Symmetry.area periodIndex Symmetry.axisArea
    rcases p with ⟨x, y, z⟩
    cases x <;> cases y <;> cases z <;> rfl
  unfold Symmetry.translations
  have : ∀ (ds : List Index3) (ts : List Symmetry.Translation), (∀ t ∈ ts, ∃ D, t.shift = cmul D (periodIndex p)) →
      ∀ t ∈ ds.foldl (Symmetry.addTranslation (Symmetry.area d p)) ts, ∃ D, t.shift = cmul D (periodIndex p) := by
    intro ds
    induction ds with
    | nil => exact fun ts h => h
    | cons D ds ih =>
      intro ts h
      rw [List.foldl_cons]
      apply ih
      unfold Symmetry.addTranslation
      split
      · exact h
      · split
        · exact h
        · intro t ht
          rcases List.mem_append.1 ht with ht | ht
          · exact h t ht
          · rw [List.mem_singleton] at ht
            subst ht
            exact ⟨D, by rw [hmid]⟩
  exact this _ [] (by simp)

theorem boundaries_shift (d : Dims) (cell : List CellSite) (nhop : Nat) (p : Periods) (names : List (String × Nat)) (valid : List Bool)
    (bs : List Symmetry.Boundary) (h : Symmetry.populateBoundaries d cell nhop p names valid = .ok bs) :
    ∀ b ∈ bs, ∃ D, b.shift = cmul D (periodIndex p) := by
  unfold Symmetry.populateBoundaries at h
  have : ∀ (ts : List Symmetry.Translation) (bs0 bs : List Symmetry.Boundary), (∀ t ∈ ts, ∃ D, t.shift = cmul D (periodIndex p)) →
      (∀ b ∈ bs0, ∃ D, b.shift = cmul D (periodIndex p)) →
      Symmetry.translationLoop d cell (finalize d cell nhop valid) names ts bs0 = .ok bs → ∀ b ∈ bs, ∃ D, b.shift = cmul D (periodIndex p) := by
    intro ts
    induction ts with
    | nil =>
      intro bs0 bs _ h0 he
      unfold Symmetry.translationLoop at he
      rw [Res.ok.injEq] at he
      exact he ▸ h0
    | cons t ts ih =>
      intro bs0 bs ht h0 he
      unfold Symmetry.translationLoop at he
      rcases hb : Symmetry.boundaryLoop d cell (finalize d cell nhop valid) t.shift (Foundation.sliceSites d cell.length t.slice)
          (Hopping.HoppingBlocks.make (finalize d cell nhop valid).total names) with hp | e | _
      · rw [hb, Res.bind_ok] at he
        refine ih _ bs (fun t h => ht t (by simp [h])) ?_ he
        split
        · intro b hb'
          rcases List.mem_append.1 hb' with hb' | hb'
          · exact h0 b hb'
          · rw [List.mem_singleton] at hb'
            subst hb'
            exact ht t (by simp)
        · exact h0
      · rw [hb, Res.bind_err] at he
        cases he
      · rw [hb, Res.bind_ub] at he
        cases he
  exact this _ [] bs (translations_shift d cell p) (by simp) h

section
variable {C L : Type} [AddMonoid C] [StarAddMonoid C] [DecidableEq C]
  (ops : List (Lattice.Lattice.Op C L)) (subs : List (String × Sublattice C L))
  (hops : List (String × HoppingFamily C))
  (hs : subs.Perm (run ops empty).subs) (hh : hops.Perm (run ops empty).hops)
  (ha : AliasesOK (run ops empty)) (d : Dims) (p : Periods) (valid : List Bool)
  (hl : valid.length = (sites d subs.length).length) (hf : enabled p = true → Symmetry.Fits d p)
  {n : Nat} (hn : n ≤ 3) (a : Fin n → Vec3)
  (pos : Nat → Vec3) (junk : Vec3) (s : System C Vec3)
  (hsys : makeSystem subs hops d p valid pos junk (shiftVec a) = .ok s)
include hs hh ha hl hf hsys

/-- **C79** (periodicity).  The Hamiltonian of a system made from a lattice does not change if a combination of the reciprocal vectors is added to the wave vector
whose coefficients are integers divided by the number of cells in one period of the system, or arbitrary where the system is not periodic.  In particular (one
cell per period) it is the same for all wave vectors which differ by a vector of the reciprocal lattice. -/
theorem C79_periodic (b : Fin n → Vec3) (hb : reciprocal hn a = .ok b) (c : Fin n → ℝ)
    (hc : ∀ j : Fin n, ∃ m : ℤ, c j * (Index3.comp (periodIndex p) j : ℤ) = m)
    (cast : C → ℂ) (mods : Modifiers ℂ Vec3) (maxBuffer : Nat) (k : Vec3) (simple : Bool) :
    make cast s mods maxBuffer (bloch (k + combine c b)) simple = make cast s mods maxBuffer (bloch k) simple := by
  obtain ⟨sr, hr, cell, bs, -, -, -, hbs, hseq, -⟩ := system_cases ops subs hops hs hh ha d p valid hl hf pos junk (shiftVec a) s hsys
  have hsh := boundaries_shift d cell _ p _ valid bs hbs
  unfold make
  have : ∀ m, buildPeriodic cast s mods maxBuffer (bloch (k + combine c b)) s.boundaries m =
      buildPeriodic cast s mods maxBuffer (bloch k) s.boundaries m := by
    intro m
    apply buildPeriodic_congr
    intro bd hbd
    have hbe : s.boundaries = bs.map fun b => ⟨shiftVec a b.shift, b.hoppings⟩ := by rw [hseq]; rfl
    rw [hbe] at hbd
    obtain ⟨b', hb', rfl⟩ := List.mem_map.1 hbd
    obtain ⟨D, hD⟩ := hsh b' hb'
    choose m hm using hc
    refine bloch_add k _ _ (∑ j : Fin n, m j * Index3.comp D j) ?_
    unfold shiftVec
    rw [combine_dot hn a b hb]
    congr 1
    push_cast
    apply Finset.sum_congr rfl
    intro j _
    have hcm : Index3.comp b'.shift j = Index3.comp D j * Index3.comp (periodIndex p) j := by
      rw [hD]
      unfold Index3.comp cmul
      rcases j with ⟨_ | _ | j, hj⟩ <;> rfl
    rw [hcm, ← hm j]
    push_cast
    ring
  simp only [this]

/-- **C79** (time reversal).  If the energies are real and the modifiers treat them as real functions do, the Hamiltonian at the negative wave vector is the complex
conjugate; so bands are symmetric. -/
theorem C79_time_reversal (cast : C → ℂ) (hc0 : cast 0 = 0) (hreal : ∀ c, star (cast c) = cast c)
    (hshort : enabled p = true → ∀ q ∈ allTerms (run ops empty).hops, Short p q.2.rel) (hin : enabled p = true → InArea d p subs.length valid)
    (mods : Modifiers ℂ Vec3) (gs : List (ElemFn ℂ Vec3)) (gos : List (OnsiteFn ℂ Vec3)) (maxBuffer : Nat) (simple : Bool)
    (hbuf : ∀ q ∈ hops, q.2.energy.size ≤ maxBuffer) (hch : ∀ r c, Chain r c mods.hopping gs) (hon : ∀ n, OnsiteChain n mods.onsite gos)
    (hgs : ∀ g ∈ gs, ∀ name e p1 p2 i j, star (g name e p1 p2 i j) = g name (fun i j => star (e i j)) p1 p2 i j)
    (hgos : ∀ g ∈ gos, ∀ name e p i j, star (g name e p i j) = g name (fun i j => star (e i j)) p i j) (k : Vec3) :
    ∃ m m', make cast s mods maxBuffer (bloch k) simple = .ok m ∧ make cast s mods maxBuffer (bloch (-k)) simple = .ok m' ∧
      ∀ r c, r < Sublat.hamiltonianSize s.sublattices → c < Sublat.hamiltonianSize s.sublattices → coeff m' r c = star (coeff m r c) := by
  have hb0 : ∀ k : Vec3, bloch k 0 = 1 := by intro k; simp [bloch]
  have hs0 : shiftVec a Index3.zero = 0 := by
    unfold shiftVec
    apply Finset.sum_eq_zero
    intro i _
    have : Index3.comp Index3.zero i = 0 := by
      unfold Index3.comp Index3.zero
      rcases i with ⟨_ | _ | i, hi⟩ <;> rfl
    rw [this]
    simp
  obtain ⟨cell, m, hcell, hm, -, hco⟩ := C50_bloch ops subs hops hs hh ha d p valid hl hf pos junk (shiftVec a) s hsys cast hc0 hshort hin
    mods gs gos maxBuffer (bloch k) (hb0 k) hs0 simple hbuf hch hon
  obtain ⟨cell', m', hcell', hm', -, hco'⟩ := C50_bloch ops subs hops hs hh ha d p valid hl hf pos junk (shiftVec a) s hsys cast hc0 hshort hin
    mods gs gos maxBuffer (bloch (-k)) (hb0 (-k)) hs0 simple hbuf hch hon
  rw [hcell, Res.ok.injEq] at hcell'
  subst hcell'
  refine ⟨m, m', hm, hm', ?_⟩
  have hfe : ∀ (gs : List (ElemFn ℂ Vec3)), (∀ g ∈ gs, ∀ name e p1 p2 i j, star (g name e p1 p2 i j) = g name (fun i j => star (e i j)) p1 p2 i j) →
      ∀ name e p1 p2 i j, star (finalEnergy gs name e p1 p2 i j) = finalEnergy gs name (fun i j => star (e i j)) p1 p2 i j := by
    intro gs
    induction gs with
    | nil => intro _ name e p1 p2 i j; rfl
    | cons g gs ih =>
      intro h name e p1 p2 i j
      have h1 := ih (fun g hg => h g (by simp [hg])) name (g name e p1 p2) p1 p2 i j
      have h2 : (fun i j => star (g name e p1 p2 i j)) = g name (fun i j => star (e i j)) p1 p2 := by
        funext i j
        exact h g (by simp) name e p1 p2 i j
      rw [h2] at h1
      exact h1
  have hfo : ∀ (gs : List (OnsiteFn ℂ Vec3)), (∀ g ∈ gs, ∀ name e p i j, star (g name e p i j) = g name (fun i j => star (e i j)) p i j) →
      ∀ name e p i j, star (finalOnsite gs name e p i j) = finalOnsite gs name (fun i j => star (e i j)) p i j := by
    intro gs
    induction gs with
    | nil => intro _ name e p i j; rfl
    | cons g gs ih =>
      intro h name e p i j
      have h1 := ih (fun g hg => h g (by simp [hg])) name (g name e p) p i j
      have h2 : (fun i j => star (g name e p i j)) = g name (fun i j => star (e i j)) p := by
        funext i j
        exact h g (by simp) name e p i j
      rw [h2] at h1
      exact h1
  have hsum : ∀ (x y : Index3 × Nat) (px py : Vec3) (i j : Nat),
      blochSum cast gs (bloch (-k)) (shiftVec a) p (run ops empty).hops x y px py i j =
        star (blochSum cast gs (bloch k) (shiftVec a) p (run ops empty).hops x y px py i j) := by
    intro x y px py i j
    have hstar : ∀ l : List ℂ, star l.sum = (l.map star).sum := by
      intro l
      induction l with
      | nil => simp
      | cons z l ih => simp [star_add, ih]
    unfold blochSum
    rw [hstar, List.map_map]
    congr 1
    apply List.map_congr_left
    intro q _
    rw [Function.comp, hstar, List.map_map]
    congr 1
    apply List.map_congr_left
    intro t _
    rw [Function.comp]
    split
    · rw [star_mul', hfe gs hgs, bloch_neg]
      simp only [hreal]
    · simp
  -- every row belongs to an orbital of a valid site
  obtain ⟨sr, hr, cell2, bs, hcell2, hP, hl', -, hseq, -⟩ := system_cases ops subs hops hs hh ha d p valid hl hf pos junk (shiftVec a) s hsys
  rw [hcell, Res.ok.injEq] at hcell2
  subst hcell2
  have hrow : ∀ r, r < Sublat.hamiltonianSize s.sublattices → ∃ k ck i, valid[k]? = some true ∧ crystalSite d cell k = some ck ∧
      r = firstRow (tableNorbs s.sublattices) ((valid.take k).count true) + i ∧
      ∀ sub : String × Sublattice C L, (run ops empty).subs[ck.2.uniqueId]? = some sub → i < sub.2.energy.rows := by
    intro r hr0
    rw [Sublat.hamiltonianSize_eq] at hr0
    obtain ⟨k', i, hi, hki⟩ := exists_row _ r hr0
    have hk' : k' < valid.count true := by
      by_contra hc
      rw [List.getD_eq_getElem?_getD, List.getElem?_eq_none] at hi
      · simp at hi
      · rw [hseq]
        show (tableNorbs (Sublat.runAdds (popOps d cell valid))).length ≤ k'
        rw [tableNorbs_pop hP.cellOK hl', List.length_map, Foundation.popOps_length]
        omega
    obtain ⟨k, hk, rfl⟩ := validPairs_get' hk'
    obtain ⟨c, hc, hcm⟩ := cellAt_some (d := d) (cell := cell) hl' hk
    refine ⟨k, ((locOf d k).idx, c), i, hk, by unfold crystalSite; rw [hc]; rfl, hki, ?_⟩
    intro sub hsub
    obtain ⟨sub', root, g1, -, -, -, -, g3, -, -, -⟩ := hP.siteAt hl' pos (bs.map fun b => ⟨shiftVec a b.shift, b.hoppings⟩) hk hc hcm
    rw [g1, Option.some.injEq] at hsub
    subst hsub
    rw [hseq, List.getD_eq_getElem?_getD] at hi
    have hi : i < ((tableNorbs (Sublat.runAdds (popOps d cell valid)))[rank valid k]?).getD 0 := hi
    rw [norb_at hP.cellOK hl' hk hc] at hi
    rw [g3]
    exact hi
  intro r c hr' hc'
  obtain ⟨k1, c1, i, hv1, hc1, rfl, ho1⟩ := hrow r hr'
  obtain ⟨k2, c2, j, hv2, hc2, rfl, ho2⟩ := hrow c hc'
  obtain ⟨sub, sub', root, e1, e2, e3, he⟩ := hco k1 k2 c1 c2 hv1 hv2 hc1 hc2
  obtain ⟨sub2, sub2', root2, f1, f2, f3, hfq⟩ := hco' k1 k2 c1 c2 hv1 hv2 hc1 hc2
  rw [e1, Option.some.injEq] at f1
  rw [e2, Option.some.injEq] at f2
  subst f1
  subst f2
  rw [e3, Option.some.injEq] at f3
  subst f3
  rw [he i j (ho1 sub e1) (ho2 sub' e2), hfq i j (ho1 sub e1) (ho2 sub' e2), star_add, star_add, star_star, hsum, hsum, star_star]
  congr 2
  split
  · rw [hfo gos hgos]
    simp only [hreal]
  · simp

end

/-! ## The Brillouin zone -/

/-- **C79** (the zone of a one-dimensional lattice).  Every wave vector is equivalent to one in the returned interval, and to only one in its interior. -/
theorem C79_zone1 (a b : Fin 1 → Vec3) (hb : reciprocal (by decide) a = .ok b) :
    (∀ x : ℝ, ∃ m : ℤ, (zone1 (b 0)).1 ≤ x + m * b 0 0 ∧ x + m * b 0 0 ≤ (zone1 (b 0)).2) ∧
    ∀ (x : ℝ) (m : ℤ), (zone1 (b 0)).1 < x → x < (zone1 (b 0)).2 → (zone1 (b 0)).1 < x + m * b 0 0 → x + m * b 0 0 < (zone1 (b 0)).2 → m = 0 := by
  have hd := (C79_dual (by decide) a).2 b hb 0 0
  have hz : ∀ c : Fin 3, ¬ c.val < 1 → b 0 c = 0 := by
    intro c hc
    unfold reciprocal at hb
    split at hb
    · cases hb
    · rw [Res.ok.injEq] at hb
      subst hb
      simp only [hc, dif_neg, not_false_eq_true]
  have h1 := hz 1 (by decide)
  have h2 := hz 2 (by decide)
  have hne : b 0 0 ≠ 0 := by
    intro h
    rw [dotProduct, Fin.sum_univ_three, h, h1, h2] at hd
    simp at hd
  have hs : Real.sqrt (b 0 ⬝ᵥ b 0) = |b 0 0| := by
    rw [dotProduct, Fin.sum_univ_three, h1, h2, mul_zero, add_zero, add_zero, Real.sqrt_mul_self_eq_abs]
  have hpos : 0 < |b 0 0| := abs_pos.2 hne
  have hz1 : (zone1 (b 0)).1 = -(|b 0 0| / 2) := by unfold zone1; rw [hs]; ring
  have hz2 : (zone1 (b 0)).2 = |b 0 0| / 2 := by unfold zone1; rw [hs]
  constructor
  · intro x
    refine ⟨-round (x / b 0 0), ?_⟩
    have h := abs_sub_round (x / b 0 0)
    have e : x + ((-round (x / b 0 0) : ℤ) : ℝ) * b 0 0 = (x / b 0 0 - round (x / b 0 0)) * b 0 0 := by
      push_cast
      field_simp
      ring
    have h' : |x + ((-round (x / b 0 0) : ℤ) : ℝ) * b 0 0| ≤ |b 0 0| / 2 := by
      rw [e, abs_mul]
      nlinarith
    rw [hz1, hz2]
    exact abs_le.1 h'
  · intro x m k1 k2 k3 k4
    rw [hz1] at k1 k3
    rw [hz2] at k2 k4
    have h : |(m : ℝ) * b 0 0| < |b 0 0| := by
      rw [abs_lt]
      constructor <;> linarith
    rw [abs_mul] at h
    have : |(m : ℝ)| < 1 := by
      by_contra hc
      rw [not_lt] at hc
      nlinarith
    rw [← Int.cast_abs] at this
    have : |m| < 1 := by exact_mod_cast this
    exact Int.abs_lt_one_iff.1 this

/-- The interior of the computed zone. -/
def Inside2 (b1 b2 k : Vec3) : Prop := ∀ p ∈ zonePoints b1 b2, p ≠ 0 → k ⬝ᵥ k < (k - p) ⬝ᵥ (k - p)

/-- The lattice point with the coefficients `m` and `n`. -/
def latticePoint (b1 b2 : Vec3) (m n : ℤ) : Vec3 := (m : ℝ) • b1 + (n : ℝ) • b2

theorem mem_zonePoints (b1 b2 p : Vec3) : p ∈ zonePoints b1 b2 ↔ ∃ m n : ℤ, |m| ≤ 1 ∧ |n| ≤ 1 ∧ p = latticePoint b1 b2 m n := by
  unfold zonePoints latticePoint
  simp only [List.mem_flatMap, List.mem_map]
  have key : ∀ m : ℤ, m ∈ ([-1, 0, 1] : List ℤ) ↔ |m| ≤ 1 := by
    intro m
    rw [abs_le]
    simp only [List.mem_cons, List.not_mem_nil, or_false]
    omega
  constructor
  · rintro ⟨m, hm, n, hn, rfl⟩
    exact ⟨m, n, (key m).1 hm, (key n).1 hn, rfl⟩
  · rintro ⟨m, n, hm, hn, rfl⟩
    exact ⟨m, (key m).2 hm, n, (key n).2 hn, rfl⟩

theorem dist_sub (k p : Vec3) : (k - p) ⬝ᵥ (k - p) = k ⬝ᵥ k + (p ⬝ᵥ p - 2 * (k ⬝ᵥ p)) := by
  rw [sub_dotProduct, dotProduct_sub, dotProduct_sub, dotProduct_comm p k]
  ring

theorem point_dot (b1 b2 k : Vec3) (m n : ℤ) : k ⬝ᵥ latticePoint b1 b2 m n = m * (k ⬝ᵥ b1) + n * (k ⬝ᵥ b2) := by
  unfold latticePoint
  rw [dotProduct_add, dotProduct_smul, dotProduct_smul]
  rfl

theorem point_sq (b1 b2 : Vec3) (m n : ℤ) : latticePoint b1 b2 m n ⬝ᵥ latticePoint b1 b2 m n =
    m * m * (b1 ⬝ᵥ b1) + 2 * (m * n) * (b1 ⬝ᵥ b2) + n * n * (b2 ⬝ᵥ b2) := by
  rw [point_dot, dotProduct_comm _ b1, dotProduct_comm _ b2, point_dot, point_dot, dotProduct_comm b2 b1]
  ring

theorem reduced_bound_pos (A B G x y : ℝ) (hA : |G| ≤ A) (hB : |G| ≤ B) (hx : 2 * x ≤ A) (hy : 2 * y ≤ B) (hxy : 2 * (x + y) ≤ A + 2 * G + B) (m n : ℕ) :
    2 * (m * x + n * y) ≤ m * m * A + 2 * (m * n) * G + n * n * B := by
  have hm0 : (0 : ℝ) ≤ m := Nat.cast_nonneg m
  have hn0 : (0 : ℝ) ≤ n := Nat.cast_nonneg n
  have hA0 := le_trans (abs_nonneg G) hA
  have hB0 := le_trans (abs_nonneg G) hB
  have hsq : ∀ k : ℕ, (k : ℝ) ≤ k * k := by
    intro k
    exact_mod_cast Nat.le_mul_self k
  rcases le_or_gt 0 G with hG | hG
  · have h1 := mul_le_mul_of_nonneg_left hx hm0
    have h2 := mul_le_mul_of_nonneg_left hy hn0
    have h3 := mul_le_mul_of_nonneg_right (hsq m) hA0
    have h4 := mul_le_mul_of_nonneg_right (hsq n) hB0
    have h5 := mul_nonneg (mul_nonneg hm0 hn0) hG
    linarith
  · rw [abs_of_neg hG] at hA hB
    -- the other signs: split along the diagonal
    have key : ∀ (P N : ℕ) (A B x y : ℝ), -G ≤ A → -G ≤ B → 2 * x ≤ A → 2 * (x + y) ≤ A + 2 * G + B → N ≤ P →
        2 * (P * x + N * y) ≤ P * P * A + 2 * (P * N) * G + N * N * B := by
      intro P N A B x y hA hB hx hxy hle
      obtain ⟨D, rfl⟩ := Nat.exists_eq_add_of_le hle
      have hD0 : (0 : ℝ) ≤ D := Nat.cast_nonneg D
      have hN0 : (0 : ℝ) ≤ N := Nat.cast_nonneg N
      have h1 := mul_le_mul_of_nonneg_left hx hD0
      have h2 := mul_le_mul_of_nonneg_left hxy hN0
      have hN1 : (0 : ℝ) ≤ N * N - N := by linarith [hsq N]
      have hD1 : (0 : ℝ) ≤ D * D - D := by linarith [hsq D]
      have hDN : (0 : ℝ) ≤ D * N := mul_nonneg hD0 hN0
      have h3 := mul_le_mul_of_nonneg_left hB hN1
      have h4 : (0 : ℝ) ≤ (N + D) * (N + D) - (N + D) := by nlinarith
      have h5 := mul_le_mul_of_nonneg_left hA h4
      have h6 : 0 ≤ -G * (D * D - D) := mul_nonneg (by linarith) hD1
      push_cast
      nlinarith
    rcases le_total n m with h | h
    · exact key m n A B x y hA hB hx hxy h
    · have := key n m B A y x hB hA hy (by linarith) h
      linarith

/-- The quadratic form of a reduced basis: the nine points decide. -/
theorem reduced_bound (A B G x y : ℝ) (hA : |G| ≤ A) (hB : |G| ≤ B)
    (h : ∀ m n : ℤ, |m| ≤ 1 → |n| ≤ 1 → 2 * (m * x + n * y) ≤ m * m * A + 2 * (m * n) * G + n * n * B) (m n : ℤ) :
    2 * (m * x + n * y) ≤ m * m * A + 2 * (m * n) * G + n * n * B := by
  have e1 := h 1 0 (by decide) (by decide)
  have e2 := h (-1) 0 (by decide) (by decide)
  have e3 := h 0 1 (by decide) (by decide)
  have e4 := h 0 (-1) (by decide) (by decide)
  have e5 := h 1 1 (by decide) (by decide)
  have e6 := h 1 (-1) (by decide) (by decide)
  have e7 := h (-1) 1 (by decide) (by decide)
  have e8 := h (-1) (-1) (by decide) (by decide)
  push_cast at e1 e2 e3 e4 e5 e6 e7 e8
  have hA' : |-G| ≤ A := by rwa [abs_neg]
  have hB' : |-G| ≤ B := by rwa [abs_neg]
  obtain ⟨m, rfl | rfl⟩ := m.eq_nat_or_neg <;> obtain ⟨n, rfl | rfl⟩ := n.eq_nat_or_neg
  · have := reduced_bound_pos A B G x y hA hB (by linarith) (by linarith) (by linarith) m n
    push_cast
    linarith
  · have := reduced_bound_pos A B (-G) x (-y) hA' hB' (by linarith) (by linarith) (by linarith) m n
    push_cast
    linarith
  · have := reduced_bound_pos A B (-G) (-x) y hA' hB' (by linarith) (by linarith) (by linarith) m n
    push_cast
    linarith
  · have := reduced_bound_pos A B G (-x) (-y) hA hB (by linarith) (by linarith) (by linarith) m n
    push_cast
    linarith

theorem inside2_of (b1 b2 k : Vec3) (h : ∀ m n : ℤ, |m| ≤ 1 → |n| ≤ 1 → (m, n) ≠ (0, 0) →
    2 * (m * (k ⬝ᵥ b1) + n * (k ⬝ᵥ b2)) < m * m * (b1 ⬝ᵥ b1) + 2 * (m * n) * (b1 ⬝ᵥ b2) + n * n * (b2 ⬝ᵥ b2)) : Inside2 b1 b2 k := by
  intro p hp hne
  obtain ⟨m, n, hm, hn, rfl⟩ := (mem_zonePoints b1 b2 p).1 hp
  have := h m n hm hn (by
    intro he
    simp only [Prod.mk.injEq] at he
    apply hne
    rw [he.1, he.2]
    simp [latticePoint])
  rw [dist_sub, point_sq, point_dot]
  linarith

theorem zone2_iff (b1 b2 k : Vec3) : zone2 b1 b2 k ↔ ∀ m n : ℤ, |m| ≤ 1 → |n| ≤ 1 →
    2 * (m * (k ⬝ᵥ b1) + n * (k ⬝ᵥ b2)) ≤ m * m * (b1 ⬝ᵥ b1) + 2 * (m * n) * (b1 ⬝ᵥ b2) + n * n * (b2 ⬝ᵥ b2) := by
  unfold zone2
  constructor
  · intro h m n hm hn
    have := h _ ((mem_zonePoints b1 b2 _).2 ⟨m, n, hm, hn, rfl⟩)
    rw [dist_sub, point_sq, point_dot] at this
    linarith
  · intro h p hp
    obtain ⟨m, n, hm, hn, rfl⟩ := (mem_zonePoints b1 b2 p).1 hp
    have := h m n hm hn
    rw [dist_sub, point_sq, point_dot]
    linarith

/-- Cauchy–Schwarz for the scalar product. -/
theorem dot_sq_le (u v : Vec3) : (u ⬝ᵥ v) ^ 2 ≤ (u ⬝ᵥ u) * (v ⬝ᵥ v) := by
  have := Finset.sum_mul_sq_le_sq_mul_sq Finset.univ u v
  simpa only [dotProduct, sq] using this

theorem dot_self_nonneg (u : Vec3) : 0 ≤ u ⬝ᵥ u := by
  rw [dotProduct, Fin.sum_univ_three]
  nlinarith [mul_self_nonneg (u 0), mul_self_nonneg (u 1), mul_self_nonneg (u 2)]

/-- There is a nearest lattice point. -/
theorem exists_nearest (a b : Fin 2 → Vec3) (hb : reciprocal (by decide) a = .ok b) (k : Vec3) :
    ∃ m n : ℤ, ∀ m' n' : ℤ, (k - latticePoint (b 0) (b 1) m n) ⬝ᵥ (k - latticePoint (b 0) (b 1) m n) ≤
      (k - latticePoint (b 0) (b 1) m' n') ⬝ᵥ (k - latticePoint (b 0) (b 1) m' n') := by
  have hd := (C79_dual (by decide) a).2 b hb
  have hpi : (1 : ℝ) ≤ (2 * Real.pi) ^ 2 := by nlinarith [Real.two_le_pi]
  -- the coefficients of a point nearer than the origin are bounded
  have hbound : ∀ (i : Fin 2) (m n : ℤ), (k - latticePoint (b 0) (b 1) m n) ⬝ᵥ (k - latticePoint (b 0) (b 1) m n) ≤ k ⬝ᵥ k →
      (((if i = 0 then m else n) : ℤ) : ℝ) ^ 2 ≤ 4 * (a i ⬝ᵥ a i) * (k ⬝ᵥ k) := by
    intro i m n h
    set p := latticePoint (b 0) (b 1) m n with hp
    rw [dist_sub] at h
    have hpp := dot_self_nonneg p
    have hkk := dot_self_nonneg k
    have haa := dot_self_nonneg (a i)
    have h1 : p ⬝ᵥ p ≤ 4 * (k ⬝ᵥ k) := by
      by_contra hc
      rw [not_le] at hc
      have h2 := dot_sq_le k p
      nlinarith
    have h3 := dot_sq_le (a i) p
    have h4 : a i ⬝ᵥ p = 2 * Real.pi * ((if i = 0 then m else n : ℤ) : ℝ) := by
      rw [hp, point_dot, hd, hd]
      fin_cases i <;> simp <;> ring
    rw [h4, mul_pow] at h3
    have h5 : (a i ⬝ᵥ a i) * (p ⬝ᵥ p) ≤ (a i ⬝ᵥ a i) * (4 * (k ⬝ᵥ k)) := mul_le_mul_of_nonneg_left h1 haa
    nlinarith [sq_nonneg (((if i = 0 then m else n : ℤ)) : ℝ)]
  obtain ⟨N, hN⟩ := exists_nat_ge (max (4 * (a 0 ⬝ᵥ a 0) * (k ⬝ᵥ k)) (4 * (a 1 ⬝ᵥ a 1) * (k ⬝ᵥ k)))
  have hfin : ∀ z : ℤ, (z : ℝ) ^ 2 ≤ N → z ∈ Finset.Icc (-(N : ℤ)) N := by
    intro z hz
    have hz' : z ^ 2 ≤ (N : ℤ) := by exact_mod_cast hz
    rw [Finset.mem_Icc]
    constructor <;> nlinarith
  let S : Finset (ℤ × ℤ) := Finset.Icc (-(N : ℤ)) N ×ˢ Finset.Icc (-(N : ℤ)) N
  have h0 : ((0 : ℤ), (0 : ℤ)) ∈ S := by
    simp [S]
  obtain ⟨⟨m, n⟩, -, hmin⟩ := S.exists_min_image
    (fun q => (k - latticePoint (b 0) (b 1) q.1 q.2) ⬝ᵥ (k - latticePoint (b 0) (b 1) q.1 q.2)) ⟨_, h0⟩
  refine ⟨m, n, ?_⟩
  intro m' n'
  have hz : (k - latticePoint (b 0) (b 1) 0 0) ⬝ᵥ (k - latticePoint (b 0) (b 1) 0 0) = k ⬝ᵥ k := by
    unfold latticePoint
    simp
  by_cases h : (k - latticePoint (b 0) (b 1) m' n') ⬝ᵥ (k - latticePoint (b 0) (b 1) m' n') ≤ k ⬝ᵥ k
  · refine hmin (m', n') ?_
    have g0 := hbound 0 m' n' h
    have g1 := hbound 1 m' n' h
    simp only [if_true, one_ne_zero, if_false] at g0 g1
    exact Finset.mem_product.2 ⟨hfin m' (le_trans g0 (le_trans (le_max_left _ _) hN)), hfin n' (le_trans g1 (le_trans (le_max_right _ _) hN))⟩
  · have := hmin (0, 0) h0
    simp only at this
    rw [hz] at this
    linarith

/-- A point which is strictly nearest to the origin stays so when it is moved a little outwards. -/
theorem stretch (l : List Vec3) (k : Vec3) (h : ∀ p ∈ l, p ≠ 0 → k ⬝ᵥ k < (k - p) ⬝ᵥ (k - p)) :
    ∃ ε : ℝ, 0 < ε ∧ ∀ p ∈ l, ((1 + ε) • k) ⬝ᵥ ((1 + ε) • k) ≤ ((1 + ε) • k - p) ⬝ᵥ ((1 + ε) • k - p) := by
  have : ∃ ε : ℝ, 0 < ε ∧ ∀ p ∈ l, ∀ δ, 0 < δ → δ ≤ ε → (1 + δ) * (2 * (k ⬝ᵥ p)) ≤ p ⬝ᵥ p := by
    induction l with
    | nil => exact ⟨1, one_pos, by simp⟩
    | cons p l ih =>
      obtain ⟨ε, hε, hl⟩ := ih fun p hp => h p (by simp [hp])
      by_cases hp : p = 0
      · refine ⟨ε, hε, ?_⟩
        intro q hq δ h0 h1
        rcases List.mem_cons.1 hq with rfl | hq
        · rw [hp]
          simp
        · exact hl q hq δ h0 h1
      · have hlt := h p (by simp) hp
        rw [dist_sub] at hlt
        set x := 2 * (k ⬝ᵥ p) with hx
        set y := p ⬝ᵥ p with hy
        have hpos : 0 < |x| + 1 := by positivity
        refine ⟨min ε ((y - x) / (|x| + 1)), lt_min hε (div_pos (by linarith) hpos), ?_⟩
        intro q hq δ h0 h1
        rcases List.mem_cons.1 hq with rfl | hq
        · have h2 := (le_div_iff₀ hpos).1 (h1.trans (min_le_right _ _))
          have h3 : δ * x ≤ δ * |x| := mul_le_mul_of_nonneg_left (le_abs_self x) h0.le
          rw [← hx, ← hy]
          nlinarith
        · exact hl q hq δ h0 (h1.trans (min_le_left _ _))
  obtain ⟨ε, hε, hl⟩ := this
  refine ⟨ε, hε, ?_⟩
  intro p hp
  have := hl p hp ε hε le_rfl
  rw [dist_sub, smul_dotProduct (1 + ε) k p, smul_eq_mul]
  linarith

/-- **C79** (the zone of a two-dimensional lattice, partial).  If the scalar product of the reciprocal vectors is not larger than the square of either of them,
the computed region is the set of the wave vectors nearest to the origin among *all* reciprocal lattice points; every wave vector is equivalent to one in the
region and to at most one in its interior.  Missing: bases with a larger scalar product, for which the region is too large, see `C79_zone2_witness`. -/
theorem C79_zone2_partial (a b : Fin 2 → Vec3) (hb : reciprocal (by decide) a = .ok b)
    (h1 : |b 0 ⬝ᵥ b 1| ≤ b 0 ⬝ᵥ b 0) (h2 : |b 0 ⬝ᵥ b 1| ≤ b 1 ⬝ᵥ b 1) :
    (∀ k, zone2 (b 0) (b 1) k ↔ ∀ m n : ℤ, k ⬝ᵥ k ≤ (k - latticePoint (b 0) (b 1) m n) ⬝ᵥ (k - latticePoint (b 0) (b 1) m n)) ∧
    (∀ k, ∃ m n : ℤ, zone2 (b 0) (b 1) (k + latticePoint (b 0) (b 1) m n)) ∧
    ∀ k (m n : ℤ), Inside2 (b 0) (b 1) k → zone2 (b 0) (b 1) (k + latticePoint (b 0) (b 1) m n) → latticePoint (b 0) (b 1) m n = 0 := by
  have key : ∀ k, zone2 (b 0) (b 1) k ↔
      ∀ m n : ℤ, k ⬝ᵥ k ≤ (k - latticePoint (b 0) (b 1) m n) ⬝ᵥ (k - latticePoint (b 0) (b 1) m n) := by
    intro k
    constructor
    · intro h m n
      have := reduced_bound _ _ _ _ _ h1 h2 ((zone2_iff _ _ k).1 h) m n
      rw [dist_sub, point_sq, point_dot]
      linarith
    · intro h p hp
      obtain ⟨m, n, -, -, rfl⟩ := (mem_zonePoints _ _ p).1 hp
      exact h m n
  have hneg : ∀ m n : ℤ, latticePoint (b 0) (b 1) (-m) (-n) = -latticePoint (b 0) (b 1) m n := by
    intro m n
    unfold latticePoint
    push_cast
    module
  have hadd : ∀ m n m' n' : ℤ, latticePoint (b 0) (b 1) (m + m') (n + n') = latticePoint (b 0) (b 1) m n + latticePoint (b 0) (b 1) m' n' := by
    intro m n m' n'
    unfold latticePoint
    push_cast
    module
  refine ⟨key, ?_, ?_⟩
  · intro k
    obtain ⟨m, n, h⟩ := exists_nearest a b hb k
    refine ⟨-m, -n, (key _).2 ?_⟩
    intro m' n'
    have := h (m + m') (n + n')
    rw [hadd, ← sub_sub] at this
    rw [hneg, ← sub_eq_add_neg]
    exact this
  · intro k m n hk hz
    -- both are nearest, so `k` is at equal distance from the origin and from a lattice point
    have hle := (key _).1 hz m n
    rw [add_sub_cancel_right] at hle
    by_contra hne
    obtain ⟨ε, hε, hs⟩ := stretch (zonePoints (b 0) (b 1)) k hk
    have := (key ((1 + ε) • k)).1 hs (-m) (-n)
    rw [hneg, dist_sub] at this
    rw [show k + latticePoint (b 0) (b 1) m n = k - -latticePoint (b 0) (b 1) m n by rw [sub_neg_eq_add], dist_sub] at hle
    set P := -latticePoint (b 0) (b 1) m n with hP
    rw [smul_dotProduct (1 + ε) k P, smul_eq_mul] at this
    have hpos : 0 < P ⬝ᵥ P := by
      rcases (dot_self_nonneg P).lt_or_eq with h | h
      · exact h
      · exfalso
        apply hne
        have := dotProduct_self_eq_zero.1 h.symm
        rw [hP, neg_eq_zero] at this
        exact this
    nlinarith

/-- **C79** (the zone of a two-dimensional lattice is too large).  For the square lattice given by the vectors `(1, 0)` and `(3, 1)` the interior of the computed
region has two wave vectors which are equivalent. -/
theorem C79_zone2_witness : ∃ (a b : Fin 2 → Vec3), reciprocal (by decide) a = .ok b ∧ a 0 = ![1, 0, 0] ∧ a 1 = ![3, 1, 0] ∧
    ∃ (k : Vec3) (m n : ℤ), latticePoint (b 0) (b 1) m n ≠ 0 ∧ Inside2 (b 0) (b 1) k ∧ Inside2 (b 0) (b 1) (k + latticePoint (b 0) (b 1) m n) := by
  let a : Fin 2 → Vec3 := ![![1, 0, 0], ![3, 1, 0]]
  let b : Fin 2 → Vec3 := ![![2 * Real.pi, -(6 * Real.pi), 0], ![0, 2 * Real.pi, 0]]
  have hM : vectorMatrix (by decide) a = !![1, 3; 0, 1] := by
    ext i j
    fin_cases i <;> fin_cases j <;> simp [vectorMatrix, a]
  have hdet : (vectorMatrix (by decide) a).det ≠ 0 := by
    rw [hM, Matrix.det_fin_two]
    simp
  have hinv : (vectorMatrix (by decide) a)⁻¹ = !![1, -3; 0, 1] := by
    rw [hM]
    apply Matrix.inv_eq_left_inv
    ext i j
    fin_cases i <;> fin_cases j <;> simp [Matrix.mul_apply, Fin.sum_univ_two]
  have hb : reciprocal (by decide) a = .ok b := by
    unfold reciprocal
    rw [if_neg hdet, hinv]
    congr 1
    funext j c
    fin_cases j <;> fin_cases c <;> simp [b] <;> ring
  set q := 4 * Real.pi ^ 2 with hq
  have hq0 : 0 < q := by positivity
  have g1 : b 0 ⬝ᵥ b 0 = q * 10 := by simp [b, dotProduct, Fin.sum_univ_three, q]; ring
  have g2 : b 0 ⬝ᵥ b 1 = q * (-3) := by simp [b, dotProduct, Fin.sum_univ_three, q]; ring
  have g3 : b 1 ⬝ᵥ b 1 = q := by simp [b, dotProduct, Fin.sum_univ_three, q]; ring
  have table : ∀ m n : ℤ, |m| ≤ 1 → |n| ≤ 1 → (m, n) ≠ (0, 0) → ∀ x : ℝ, |x| ≤ 1 →
      0 < q * (m * m * 10 + 2 * (m * n) * (-3) + n * n - 2 * (m * x)) := by
    intro m n hm hn hne x hx
    apply mul_pos hq0
    rw [abs_le] at hm hn hx
    obtain ⟨m1, m2⟩ := hm
    obtain ⟨n1, n2⟩ := hn
    interval_cases m <;> interval_cases n <;> first | (exact absurd rfl hne) | (push_cast; linarith)
  refine ⟨a, b, hb, rfl, rfl, ![2 * Real.pi * (3 / 5), 0, 0], -1, -3, ?_, ?_, ?_⟩
  · intro h
    have := congrFun h 0
    simp [latticePoint, b] at this
  · refine inside2_of _ _ _ fun m n hm hn hne => ?_
    rw [g1, g2, g3]
    have e1 : ![2 * Real.pi * (3 / 5), 0, 0] ⬝ᵥ b 0 = q * (3 / 5) := by simp [b, dotProduct, Fin.sum_univ_three, q]; ring
    have e2 : ![2 * Real.pi * (3 / 5), 0, 0] ⬝ᵥ b 1 = 0 := by simp [b, dotProduct, Fin.sum_univ_three]
    rw [e1, e2]
    have := table m n hm hn hne (3 / 5) (by norm_num [abs_le])
    nlinarith
  · refine inside2_of _ _ _ fun m n hm hn hne => ?_
    rw [g1, g2, g3]
    have e0 : ![2 * Real.pi * (3 / 5), 0, 0] + latticePoint (b 0) (b 1) (-1) (-3) = ![-(2 * Real.pi * (2 / 5)), 0, 0] := by
      unfold latticePoint
      funext c
      fin_cases c <;> simp [b] <;> ring
    have e1 : ![-(2 * Real.pi * (2 / 5)), 0, 0] ⬝ᵥ b 0 = q * (-(2 / 5)) := by simp [b, dotProduct, Fin.sum_univ_three, q]; ring
    have e2 : ![-(2 * Real.pi * (2 / 5)), 0, 0] ⬝ᵥ b 1 = 0 := by simp [b, dotProduct, Fin.sum_univ_three]
    rw [e0, e1, e2]
    have := table m n hm hn hne (-(2 / 5)) (by norm_num [abs_le])
    nlinarith

/-- **C79** (the reciprocal vectors need not exist).  For a one-dimensional lattice along `y` there are none, although the lattice is a valid one. -/
theorem C79_singular_witness : reciprocal (by decide) (![![0, 1, 0]] : Fin 1 → Vec3) = .err .runtimeError ∧ (![![0, 1, 0]] : Fin 1 → Vec3) 0 ≠ 0 := by
  constructor
  · rw [(C79_dual _ _).1, Matrix.det_fin_one]
    simp [vectorMatrix]
  · intro h
    have := congrFun h 1
    simp at this

/-! ## Example -/

/-- The hypotheses of C79 hold for the chain with a period of two cells: half a reciprocal vector, and any vector across the chain, does not change the Hamiltonian, and
negative wave vectors give the complex conjugate. -/
example : ∃ (b : Fin 1 → Vec3) (s : System Int Vec3), reciprocal (by decide) (![![1, 0, 0]] : Fin 1 → Vec3) = .ok b ∧
    makeSystem (run chain empty).subs (run chain empty).hops ⟨2, 1, 1⟩ ⟨some 2, none, none⟩ [true, true, true, true]
      (fun k => ![(k : ℝ), 0, 0]) 0 (shiftVec ![![1, 0, 0]]) = .ok s ∧
    (∀ k, make (fun c : Int => (c : ℂ)) s ⟨[], []⟩ 2 (bloch (k + combine ![3 / 2] b)) true = make (fun c : Int => (c : ℂ)) s ⟨[], []⟩ 2 (bloch k) true) ∧
    ∀ k, ∃ m m', make (fun c : Int => (c : ℂ)) s ⟨[], []⟩ 2 (bloch k) true = .ok m ∧ make (fun c : Int => (c : ℂ)) s ⟨[], []⟩ 2 (bloch (-k)) true = .ok m' ∧
      ∀ r c, r < Sublat.hamiltonianSize s.sublattices → c < Sublat.hamiltonianSize s.sublattices → coeff m' r c = star (coeff m r c) := by
  have hshort : ∀ q ∈ allTerms (run chain empty).hops, Short ⟨some 2, none, none⟩ q.2.rel := by
    have : ∀ q ∈ allTerms (run chain empty).hops, |q.2.rel.x| ≤ 1 := by decide
    intro q hq
    exact ⟨fun _ => Or.inl (this q hq), fun h => by simp at h, fun h => by simp at h⟩
  have hfits : Symmetry.Fits ⟨2, 1, 1⟩ ⟨some 2, none, none⟩ := by
    refine ⟨?_, ?_, ?_⟩ <;> intro n hn <;> simp at hn
    subst hn
    decide
  have hin : InArea ⟨2, 1, 1⟩ ⟨some 2, none, none⟩ 2 [true, true, true, true] := by
    have : ∀ x ∈ sites ⟨2, 1, 1⟩ 2, (Symmetry.area ⟨2, 1, 1⟩ ⟨some 2, none, none⟩).contains x.loc.idx = true := by
      decide
    intro k x hx _
    exact this x (List.mem_of_getElem? hx)
  have hb : ∃ b, reciprocal (by decide) (![![1, 0, 0]] : Fin 1 → Vec3) = .ok b := by
    unfold reciprocal
    rw [if_neg]
    · exact ⟨_, rfl⟩
    · rw [Matrix.det_fin_one]
      simp [vectorMatrix]
  obtain ⟨b, hb⟩ := hb
  have hsys : ∃ s, makeSystem (run chain empty).subs (run chain empty).hops ⟨2, 1, 1⟩ ⟨some 2, none, none⟩ [true, true, true, true]
      (fun k => ![(k : ℝ), 0, 0]) 0 (shiftVec ![![1, 0, 0]]) = .ok s := by
    obtain ⟨sr, hr, cell, -, hP, h3⟩ := makeSystem_eq (P := Vec3) chain (run chain empty).subs
      (run chain empty).hops (.refl _) (.refl _) chain_aliases
    have hcl : cell.length = 2 := hP.cellLen
    obtain ⟨bs, -, b2, -⟩ := h3 ⟨2, 1, 1⟩ ⟨some 2, none, none⟩ [true, true, true, true]
      (by rw [hcl]; rfl) (fun _ => hfits) (fun k => ![(k : ℝ), 0, 0]) 0 (shiftVec ![![1, 0, 0]])
    rw [if_neg (by decide)] at b2
    exact ⟨_, b2⟩
  obtain ⟨s, hs⟩ := hsys
  refine ⟨b, s, hb, hs, ?_, ?_⟩
  · intro k
    refine C79_periodic chain _ _ (.refl _) (.refl _) chain_aliases ⟨2, 1, 1⟩ ⟨some 2, none, none⟩ [true, true, true, true] rfl (fun _ => hfits)
      (by decide) ![![1, 0, 0]] _ _ s hs b hb ![3 / 2] ?_ _ _ _ k true
    intro j
    refine ⟨3, ?_⟩
    fin_cases j
    simp [Index3.comp, periodIndex]
  · intro k
    exact C79_time_reversal chain _ _ (.refl _) (.refl _) chain_aliases ⟨2, 1, 1⟩ ⟨some 2, none, none⟩ [true, true, true, true] rfl (fun _ => hfits)
      ![![1, 0, 0]] _ _ s hs (fun c : Int => (c : ℂ)) (by simp) (by simp) (fun _ => hshort) (fun _ => hin) ⟨[], []⟩ [] [] 2 true (by decide)
      (fun r c => .nil) (fun n => .nil) (by simp) (by simp) k

/-- The hypotheses of `C79_zone2_partial` hold for the square lattice. -/
example : ∃ b, reciprocal (by decide) (![![1, 0, 0], ![0, 1, 0]] : Fin 2 → Vec3) = .ok b ∧ |b 0 ⬝ᵥ b 1| ≤ b 0 ⬝ᵥ b 0 ∧ |b 0 ⬝ᵥ b 1| ≤ b 1 ⬝ᵥ b 1 := by
  have hM : vectorMatrix (by decide) (![![1, 0, 0], ![0, 1, 0]] : Fin 2 → Vec3) = 1 := by
    ext i j
    fin_cases i <;> fin_cases j <;> simp [vectorMatrix]
  unfold reciprocal
  rw [if_neg (by rw [hM]; simp), hM]
  refine ⟨_, rfl, ?_, ?_⟩ <;> simp [dotProduct, Fin.sum_univ_three] <;> exact mul_self_nonneg _

end Verif.Pipeline
