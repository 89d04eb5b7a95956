import Verif.Leads.PropsPair
import Mathlib.Analysis.SpecialFunctions.Complex.Circle

/-!
# C92: the infinite lead, its bands, and the arrays for kwant
-/

namespace Verif.Leads

open Verif.Lattice (Sublattice HoppingFamily HoppingTerm Registry CellSite CellHopping Inv siteRegistry hoppingRegistry
  optimizedUnitCell)
open Verif.Lattice.Lattice (run empty allTerms)
open Verif.Foundation
open Verif.Hamiltonian
open Verif.Hopping (COO Csr HoppingBlocks)
open Verif.Pipeline (Parts famEnergy famName nameMap orbitals rootName onsiteOf bondEnergy Wave crystal AliasesOK)
open Verif.Sublat (tableNorbs)
open Verif.Sublat.Spec (firstRow)

variable {C L P K : Type}

/-! ## Model -/

/-- The matrix which `Lead.calc_bands` diagonalizes, leads.py:74-81:
`h0 + h1 * exp(1j * k) + h1.conj().T * exp(-1j * k)`. -/
noncomputable def bandMatrix (h0 h1 : Csr ℂ) (k : ℝ) (r c : Nat) : ℂ :=
  coeff h0 r c + coeff h1 r c * Complex.exp (Complex.I * k) + star (coeff h1 c r) * Complex.exp (-(Complex.I * k))

/-- `norb[subs]` in `hamiltonian_submatrix`, kwant.py:62-64: an array of numpy indexed by an array.  An index which
is too large raises an `IndexError`.  The sublattice numbers of a system are never negative, so that the
wrap-around of numpy is not modelled. -/
def pick (norb : List Nat) : List (Option Int) → Res (List Nat)
  | [] => .ok []
  | none :: _ => .ub
  | some id :: subs => match norb[id.toNat]? with
    | none => .err .outOfRange
    | some n => (pick norb subs).bind fun ns => .ok (n :: ns)

/-- `to_norb` of `hamiltonian_submatrix(return_norb=True)`, kwant.py:61-66: the orbital counts of the runs of equal
sublattices (`orbital_counts`, CompressedSublattices.cpp:98-103) are indexed with the sublattice number of every
site. -/
def toNorb (t : Sublat.Table) : Res (List Nat) := pick (Sublat.orbitalCounts t) (Sublat.decompressed t)

/-! ## Specification -/

/-- The modifiers do the same in every cell of the lead. -/
structure Uniform (gs : List (ElemFn K P)) (gos : List (OnsiteFn K P)) (posOf : Index3 → Nat → P) (S : Index3) : Prop where
  hopping : ∀ name e R R' α β i j, finalEnergy gs name e (posOf (R.add S) α) (posOf (R'.add S) β) i j
    = finalEnergy gs name e (posOf R α) (posOf R' β) i j
  onsite : ∀ name e R α i j, finalOnsite gos name e (posOf (R.add S) α) i j = finalOnsite gos name e (posOf R α) i j

/-- No hopping of the lattice leads over more than one cell along the lead. -/
def Reach (hops : List (String × HoppingFamily C)) (sp : Spec P) : Prop :=
  ∀ q ∈ hops, ∀ t ∈ q.2.terms, |comp t.rel sp.axis.toNat| ≤ 1

/-- The wave is zero outside of the lead, which is thought to be infinite in both directions. -/
def OnLead [Zero K] (B : Base P) (sp : Spec P) (locs : List Loc) (ψ : Wave K) : Prop :=
  ∀ R α, (∀ n a, a < locs.length → siteIn B sp locs n a ≠ (R, α)) → ∀ j, ψ R α j = 0

/-! ## Proofs -/

theorem moved_succ (R S : Index3) (m : Int) : moved R S (m + 1) = (moved R S m).add S := by
  simp only [moved, Index3.add, Index3.mk.injEq]
  refine ⟨?_, ?_, ?_⟩ <;> ring

theorem element_add [Zero C] [AddMonoid K] [Star K] (l : Lattice.Lattice C L) (cast : C → K) {gs : List (ElemFn K P)}
    {gos : List (OnsiteFn K P)} {posOf : Index3 → Nat → P} {S : Index3} (hu : Uniform gs gos posOf S) (x y : Index3 × Nat) (i j : Nat) :
    element l cast gs gos posOf (x.1.add S, x.2) (y.1.add S, y.2) i j = element l cast gs gos posOf x y i j := by
  have hinj : ∀ a b : Index3, a.add S = b.add S ↔ a = b := by
    intro a b
    rcases a with ⟨a1, a2, a3⟩
    rcases b with ⟨b1, b2, b3⟩
    simp [Index3.add]
  have hadd : ∀ a r : Index3, (a.add S).add r = (a.add r).add S := by
    intro a r
    simp only [Index3.add, Index3.mk.injEq]; omega
  unfold element hopping hopSum
  simp only [Prod.mk.injEq, hinj, hadd, hu.hopping, hu.onsite]
  congr 1
  by_cases e : x = y
  · rw [if_pos e, if_pos ⟨congrArg Prod.fst e, congrArg Prod.snd e⟩]
  · rw [if_neg e, if_neg fun h => e (Prod.ext h.1 h.2)]

/-- The elements do not change if both sites are moved along the lead. -/
theorem element_moved [Zero C] [AddMonoid K] [Star K] (l : Lattice.Lattice C L) (cast : C → K) {gs : List (ElemFn K P)}
    {gos : List (OnsiteFn K P)} {posOf : Index3 → Nat → P} {S : Index3} (hu : Uniform gs gos posOf S) (x y : Index3 × Nat) (i j : Nat)
    (n : Int) : element l cast gs gos posOf (moved x.1 S n, x.2) (moved y.1 S n, y.2) i j = element l cast gs gos posOf x y i j := by
  have hs : ∀ n : Int, element l cast gs gos posOf (moved x.1 S (n + 1), x.2) (moved y.1 S (n + 1), y.2) i j
      = element l cast gs gos posOf (moved x.1 S n, x.2) (moved y.1 S n, y.2) i j := by
    intro n
    rw [moved_succ, moved_succ]
    exact element_add l cast hu (moved x.1 S n, x.2) (moved y.1 S n, y.2) i j
  induction n using Int.induction_on with
  | zero => rw [moved_zero, moved_zero]
  | succ n ih => rw [hs, ih]
  | pred n ih =>
    have := hs (-(n : Int) - 1)
    rw [sub_add_cancel] at this
    rw [← this, ih]

theorem element_star [Zero C] [AddCommMonoid K] [StarAddMonoid K] (l : Lattice.Lattice C L) (cast : C → K) (gs : List (ElemFn K P))
    (gos : List (OnsiteFn K P)) (posOf : Index3 → Nat → P) {x y : Index3 × Nat} (hne : x ≠ y) (i j : Nat) :
    element l cast gs gos posOf x y i j = star (element l cast gs gos posOf y x j i) := by
  unfold element hopping
  rw [if_neg hne, if_neg hne.symm, zero_add, zero_add, star_add, star_star, add_comm]

theorem row_lt {norbs : List Nat} {a i : Nat} (hi : i < norbs.getD a 0) : firstRow norbs a + i < norbs.sum := by
  have := firstRow_le_sum norbs (a + 1)
  rw [firstRow_succ] at this
  omega

theorem row_cases {norbs : List Nat} {r : Nat} (hr : r < norbs.sum) : ∃ a i, i < norbs.getD a 0 ∧ r = firstRow norbs a + i := by
  have h : ∀ n, r < firstRow norbs n → ∃ a i, i < norbs.getD a 0 ∧ r = firstRow norbs a + i := by
    intro n
    induction n with
    | zero => simp [firstRow]
    | succ n ih =>
      intro hn
      by_cases hc : r < firstRow norbs n
      · exact ih hc
      · rw [firstRow_succ] at hn
        exact ⟨n, r - firstRow norbs n, by omega, by omega⟩
  refine h norbs.length ?_
  unfold firstRow
  rwa [List.take_length]

theorem comp_add (R S : Index3) (c : Nat) : comp (R.add S) c = comp R c + comp S c := by
  unfold comp
  split <;> rfl

theorem comp_sub (R S : Index3) (c : Nat) : comp (R.sub S) c = comp R c - comp S c := by
  unfold comp
  split <;> rfl

section
variable [AddMonoid C] [StarAddMonoid C] [DecidableEq C] [AddGroup P]
  {ops : List (Lattice.Lattice.Op C L)} {subs : List (String × Sublattice C L)} {hops : List (String × HoppingFamily C)}
  {sr hr : Registry C} {B : Base P} {sp : Spec P} {valid : List Bool} {i : Int} {shift : P} {posOf : Index3 → Nat → P}
  {st : Structure P} {locs : List Loc}

/-- Elements between cells of the lead. -/
theorem element_siteIn [AddMonoid K] [Star K] (cast : C → K) {gs : List (ElemFn K P)}
    {gos : List (OnsiteFn K P)} (hu : Uniform gs gos posOf sp.shift) (m n d : Int) (a b : Nat) (i j : Nat) :
    element (run ops empty) cast gs gos posOf (siteIn B sp locs (m + d) a) (siteIn B sp locs (n + d) b) i j
      = element (run ops empty) cast gs gos posOf (siteIn B sp locs m a) (siteIn B sp locs n b) i j := by
  have := element_moved (run ops empty) cast hu (siteIn B sp locs m a) (siteIn B sp locs n b) i j d
  rw [← this]
  unfold siteIn
  simp only [moved_add]

/-- **C92**: the pair `lead.h0`, `lead.h1` is the Hamiltonian of the infinite lead.  For every wave which lives on
the lead, the Hamiltonian of the crystal at a site of cell `m` is `h0` applied to the amplitudes of cell `m`, plus
`h1` applied to those of the cell before, plus the adjoint of `h1` applied to those of the cell after.  It is
required that no hopping leads over two cells of the lead (there is a counterexample below), that modifiers do the
same in each cell, and that `h1` is right at all (`C92_h1_exact`). -/
theorem C92_infinite_partial [NonUnitalNonAssocRing K] [StarAddMonoid K] [DecidableEq K]
    (h : LeadOf ops subs hops sr hr B sp valid i shift posOf st locs) (cast : C → K) (mods : Modifiers K P) (gs : List (ElemFn K P))
    (gos : List (OnsiteFn K P)) (maxBuffer : Nat) (hu : Usable cast hops mods gs gos maxBuffer)
    (hsq : SquareBack (run ops empty).hops B sp locs)
    (hself : SelfAdjointBack (run ops empty) cast gs posOf B sp (tableNorbs st.sublattices) locs)
    (huni : Uniform gs gos posOf sp.shift) (hreach : Reach (run ops empty).hops sp) :
    ∃ h0 h1, makePair cast (leadSystem sr hr st shift) mods maxBuffer = .ok (h0, h1) ∧
      ∀ (ψ : Wave K), OnLead B sp locs ψ → ∀ v : Int → Nat → K,
        (∀ n b j, j < (tableNorbs st.sublattices).getD b 0 →
          v n (firstRow (tableNorbs st.sublattices) b + j) = ψ (siteIn B sp locs n b).1 (siteIn B sp locs n b).2 j) →
        ∀ m a i, i < (tableNorbs st.sublattices).getD a 0 →
          crystal (run ops empty) cast gs gos posOf ψ (siteIn B sp locs m a).1 (siteIn B sp locs m a).2 i
            = ∑ c ∈ Finset.range (Sublat.hamiltonianSize st.sublattices),
                (coeff h0 (firstRow (tableNorbs st.sublattices) a + i) c * v m c
                + coeff h1 (firstRow (tableNorbs st.sublattices) a + i) c * v (m - 1) c
                + star (coeff h1 c (firstRow (tableNorbs st.sublattices) a + i)) * v (m + 1) c) := by
  obtain ⟨h0, a1, -, a3⟩ := C92_h0 h cast mods gs gos maxBuffer hu
  obtain ⟨h1, b1, -, b3⟩ := C92_h1_exact h cast mods gs gos maxBuffer hu hsq
  have b3 := b3.2 hself
  refine ⟨h0, h1, ?_, ?_⟩
  · unfold makePair
    rw [a1, b1]
    rfl
  · intro ψ hψ v hv m a i' hi
    have ha := h.lt hi
    have hsign : sp.sign = 1 ∨ sp.sign = -1 := h.directed.2.2
    have hnear : ∀ R α, |comp R sp.axis.toNat - comp (siteIn B sp locs m a).1 sp.axis.toNat| ≤ 1 →
        (∀ k ∈ ({m, m - 1, m + 1} : Finset Int) ×ˢ Finset.range locs.length, siteIn B sp locs k.1 k.2 ≠ (R, α)) →
        ∀ j, ψ R α j = 0 := by
      intro R α hR hno
      refine hψ R α ?_
      intro n b hb e
      refine hno (n, b) ?_ e
      rw [Finset.mem_product]
      refine ⟨?_, Finset.mem_range.2 hb⟩
      have e1 : comp R sp.axis.toNat = i + n * sp.sign := by
        rw [← h.layerOf hb n, e]
      rw [e1, h.layerOf ha m, abs_le] at hR
      have : n = m ∨ n = m - 1 ∨ n = m + 1 := by
        rcases hsign with hs | hs <;> rw [hs] at hR <;> omega
      simpa using this
    rw [crystal_elements (run ops empty) cast gs gos posOf (({m, m - 1, m + 1} : Finset Int) ×ˢ Finset.range locs.length)
      (fun k => siteIn B sp locs k.1 k.2) (by
        intro k hk k' hk' e
        rw [Finset.mem_product, Finset.mem_range] at hk hk'
        obtain ⟨e1, e2⟩ := h.siteIn_inj hk.2 hk'.2 e
        exact Prod.ext e1 e2) ψ (siteIn B sp locs m a) i'
      (hnear (siteIn B sp locs m a).1 (siteIn B sp locs m a).2 (by simp))
      (by
        intro q hq t ht _
        refine hnear _ _ ?_
        rw [comp_add, add_sub_cancel_left]
        exact hreach q hq t ht)
      (by
        intro q hq t ht _
        refine hnear _ _ ?_
        rw [comp_sub, sub_sub_cancel_left, abs_neg]
        exact hreach q hq t ht)]
    rw [Finset.sum_product, Finset.sum_insert (by simp only [Finset.mem_insert, Finset.mem_singleton]; omega),
      Finset.sum_insert (by rw [Finset.mem_singleton]; omega), Finset.sum_singleton]
    have hcell : ∀ (n : Int) (X : Nat → K) (hX : ∀ b j, j < (tableNorbs st.sublattices).getD b 0 →
        element (run ops empty) cast gs gos posOf (siteIn B sp locs m a) (siteIn B sp locs n b) i' j
          = X (firstRow (tableNorbs st.sublattices) b + j)),
        ∑ b ∈ Finset.range locs.length, ∑ j ∈ Finset.range (orbitals (run ops empty) (siteIn B sp locs n b).2),
          element (run ops empty) cast gs gos posOf (siteIn B sp locs m a) (siteIn B sp locs n b) i' j *
            ψ (siteIn B sp locs n b).1 (siteIn B sp locs n b).2 j
        = ∑ c ∈ Finset.range (Sublat.hamiltonianSize st.sublattices), X c * v n c := by
      intro n X hX
      rw [Sublat.hamiltonianSize_eq, Pipeline.sum_rows, lead_length h.lead]
      refine Finset.sum_congr rfl fun b hb => ?_
      have hb := Finset.mem_range.1 hb
      have ho : orbitals (run ops empty) (siteIn B sp locs n b).2 = (tableNorbs st.sublattices).getD b 0 := (h.orbitals hb).symm
      rw [ho]
      refine Finset.sum_congr rfl fun j hj => ?_
      have hj := Finset.mem_range.1 hj
      rw [hX b j hj, hv n b j hj]
    rw [hcell m (fun c => coeff h0 (firstRow (tableNorbs st.sublattices) a + i') c), hcell (m - 1) (fun c => coeff h1 (firstRow (tableNorbs st.sublattices) a + i') c),
      hcell (m + 1) (fun c => star (coeff h1 c (firstRow (tableNorbs st.sublattices) a + i'))), ← Finset.sum_add_distrib, ← Finset.sum_add_distrib]
    · refine Finset.sum_congr rfl fun c _ => ?_
      rw [add_assoc]
    · intro b j hj
      show _ = star (coeff h1 _ _)
      rw [b3 b a j i' hj hi]
      have e1 := element_siteIn (ops := ops) (B := B) (locs := locs) cast huni 0 1 m a b i' j
      rw [zero_add, add_comm 1 m] at e1
      rw [e1]
      refine element_star _ _ _ _ _ ?_ _ _
      intro e
      have := (h.siteIn_inj ha (h.lt hj) e).1
      omega
    · intro b j hj
      show _ = coeff h1 _ _
      rw [b3 a b i' j hi hj]
      have e1 := element_siteIn (ops := ops) (B := B) (locs := locs) cast huni 1 0 (m - 1) a b i' j
      rw [zero_add, add_sub_cancel] at e1
      exact e1
    · intro b j hj
      show _ = coeff h0 _ _
      rw [a3 a b i' j hi hj]
      have e1 := element_siteIn (ops := ops) (B := B) (locs := locs) cast huni 1 1 (m - 1) a b i' j
      rw [add_sub_cancel] at e1
      exact e1

/-- **C92**: `lead.calc_bands` gives the bands of the infinite lead.  A vector is an eigenvector of the matrix which
is diagonalized for `k` if and only if the wave with these amplitudes, times `exp(-ikn)` in the cell `n`, is an
eigenwave of the crystal on the sites of the lead; with the same energy. -/
theorem C92_bands_partial (h : LeadOf ops subs hops sr hr B sp valid i shift posOf st locs) (cast : C → ℂ) (mods : Modifiers ℂ P)
    (gs : List (ElemFn ℂ P)) (gos : List (OnsiteFn ℂ P)) (maxBuffer : Nat) (hu : Usable cast hops mods gs gos maxBuffer)
    (hsq : SquareBack (run ops empty).hops B sp locs)
    (hself : SelfAdjointBack (run ops empty) cast gs posOf B sp (tableNorbs st.sublattices) locs)
    (huni : Uniform gs gos posOf sp.shift) (hreach : Reach (run ops empty).hops sp) :
    ∃ h0 h1, makePair cast (leadSystem sr hr st shift) mods maxBuffer = .ok (h0, h1) ∧
      ∀ (k : ℝ) (φ : Nat → ℂ) (E : ℂ) (ψ : Wave ℂ), OnLead B sp locs ψ →
        (∀ (n : Int) b j, j < (tableNorbs st.sublattices).getD b 0 → ψ (siteIn B sp locs n b).1 (siteIn B sp locs n b).2 j
          = Complex.exp (-(Complex.I * k * n)) * φ (firstRow (tableNorbs st.sublattices) b + j)) →
        ((∀ r, r < Sublat.hamiltonianSize st.sublattices →
            ∑ c ∈ Finset.range (Sublat.hamiltonianSize st.sublattices), bandMatrix h0 h1 k r c * φ c = E * φ r)
          ↔ ∀ m a i, i < (tableNorbs st.sublattices).getD a 0 →
            crystal (run ops empty) cast gs gos posOf ψ (siteIn B sp locs m a).1 (siteIn B sp locs m a).2 i
              = E * ψ (siteIn B sp locs m a).1 (siteIn B sp locs m a).2 i) := by
  obtain ⟨h0, h1, e1, e2⟩ := C92_infinite_partial h cast mods gs gos maxBuffer hu hsq hself huni hreach
  refine ⟨h0, h1, e1, ?_⟩
  intro k φ E ψ hψ hval
  have hsum : ∀ (m : Int) a i', i' < (tableNorbs st.sublattices).getD a 0 →
      crystal (run ops empty) cast gs gos posOf ψ (siteIn B sp locs m a).1 (siteIn B sp locs m a).2 i'
        = Complex.exp (-(Complex.I * k * m)) * ∑ c ∈ Finset.range (Sublat.hamiltonianSize st.sublattices),
            bandMatrix h0 h1 k (firstRow (tableNorbs st.sublattices) a + i') c * φ c := by
    intro m a i' hi
    rw [e2 ψ hψ (fun n c => Complex.exp (-(Complex.I * k * n)) * φ c) (fun n b j hj => (hval n b j hj).symm) m a i' hi, Finset.mul_sum]
    refine Finset.sum_congr rfl fun c _ => ?_
    have x1 : Complex.exp (-(Complex.I * k * ((m - 1 : Int) : ℂ))) = Complex.exp (-(Complex.I * k * m)) * Complex.exp (Complex.I * k) := by
      rw [← Complex.exp_add]; congr 1; push_cast; ring
    have x2 : Complex.exp (-(Complex.I * k * ((m + 1 : Int) : ℂ))) = Complex.exp (-(Complex.I * k * m)) * Complex.exp (-(Complex.I * k)) := by
      rw [← Complex.exp_add]; congr 1; push_cast; ring
    simp only [x1, x2]
    unfold bandMatrix
    ring
  constructor
  · intro hev m a i' hi
    rw [hsum m a i' hi, hval m a i' hi, hev _ ?_]
    · ring
    · rw [Sublat.hamiltonianSize_eq]
      exact row_lt hi
  · intro hw r hr'
    rw [Sublat.hamiltonianSize_eq] at hr'
    obtain ⟨a, i', hi, rfl⟩ := row_cases hr'
    have := hw 0 a i' hi
    rw [hsum 0 a i' hi, hval 0 a i' hi] at this
    simpa using this

end

/-- **C92**: the matrix of `calc_bands` is Hermitian for every `k` if the Hamiltonian of the cell is: its eigenvalues,
which `eigh` computes from one of its halves, are well defined and real. -/
theorem C92_hermitian (h0 h1 : Csr ℂ) (hh : ∀ r c, coeff h0 r c = star (coeff h0 c r)) (k : ℝ) (r c : Nat) :
    bandMatrix h0 h1 k r c = star (bandMatrix h0 h1 k c r) := by
  have x1 : star (Complex.exp (Complex.I * k)) = Complex.exp (-(Complex.I * k)) := by
    rw [Complex.star_def, ← Complex.exp_conj]
    simp
  have x2 : star (Complex.exp (-(Complex.I * k))) = Complex.exp (Complex.I * k) := by
    rw [Complex.star_def, ← Complex.exp_conj]
    simp
  unfold bandMatrix
  rw [star_add, star_add, star_mul', star_mul', x1, x2, star_star, ← hh]
  ring

section
variable [AddMonoid C] [StarAddMonoid C] [DecidableEq C] [AddGroup P]
  {ops : List (Lattice.Lattice.Op C L)} {subs : List (String × Sublattice C L)} {hops : List (String × HoppingFamily C)}
  {sr hr : Registry C} {B : Base P} {sp : Spec P} {valid : List Bool} {i : Int} {shift : P} {posOf : Index3 → Nat → P}
  {st : Structure P} {locs : List Loc}

open Classical in
/-- A wave of the lead with given amplitudes in each of its cells. -/
theorem C92_wave [Zero K] (h : LeadOf ops subs hops sr hr B sp valid i shift posOf st locs) (v : Int → Nat → K) :
    ∃ ψ : Wave K, OnLead B sp locs ψ ∧ ∀ n b j, j < (tableNorbs st.sublattices).getD b 0 →
      ψ (siteIn B sp locs n b).1 (siteIn B sp locs n b).2 j = v n (firstRow (tableNorbs st.sublattices) b + j) := by
  refine ⟨fun R α j => if hx : ∃ x : Int × Nat, x.2 < locs.length ∧ siteIn B sp locs x.1 x.2 = (R, α) then
    v hx.choose.1 (firstRow (tableNorbs st.sublattices) hx.choose.2 + j) else 0, ?_, ?_⟩
  · intro R α hno j
    exact dif_neg fun ⟨x, hx, e⟩ => hno x.1 x.2 hx e
  · intro n b j hj
    have hx : ∃ x : Int × Nat, x.2 < locs.length ∧ siteIn B sp locs x.1 x.2
        = ((siteIn B sp locs n b).1, (siteIn B sp locs n b).2) := ⟨(n, b), h.lt hj, rfl⟩
    show dite _ _ _ = _
    rw [dif_pos hx]
    obtain ⟨h1, h2⟩ := hx.choose_spec
    obtain ⟨e1, e2⟩ := h.siteIn_inj h1 (h.lt hj) h2
    rw [e1, e2]

/-- **C92** is false if hoppings lead over two or more cells of the lead: they are missing in `h0` and `h1`, without
an error.  For any such element, and whatever `h0` and `h1` may be, the formula is wrong for some wave. -/
theorem C92_long [NonAssocRing K] [StarAddMonoid K] (h : LeadOf ops subs hops sr hr B sp valid i shift posOf st locs)
    (cast : C → K) (gs : List (ElemFn K P)) (gos : List (OnsiteFn K P)) (h0 h1 : Csr K) (a b i' j : Nat) (d : Int) (hd : 2 ≤ d)
    (hi : i' < (tableNorbs st.sublattices).getD a 0) (hj : j < (tableNorbs st.sublattices).getD b 0)
    (hne : element (run ops empty) cast gs gos posOf (siteIn B sp locs d a) (siteIn B sp locs 0 b) i' j ≠ 0) :
    ∃ (ψ : Wave K) (v : Int → Nat → K), OnLead B sp locs ψ ∧
      (∀ n b j, j < (tableNorbs st.sublattices).getD b 0 →
          v n (firstRow (tableNorbs st.sublattices) b + j) = ψ (siteIn B sp locs n b).1 (siteIn B sp locs n b).2 j) ∧
      crystal (run ops empty) cast gs gos posOf ψ (siteIn B sp locs d a).1 (siteIn B sp locs d a).2 i'
            ≠ ∑ c ∈ Finset.range (Sublat.hamiltonianSize st.sublattices),
                (coeff h0 (firstRow (tableNorbs st.sublattices) a + i') c * v d c
                + coeff h1 (firstRow (tableNorbs st.sublattices) a + i') c * v (d - 1) c
                + star (coeff h1 c (firstRow (tableNorbs st.sublattices) a + i')) * v (d + 1) c) := by
  obtain ⟨ψ, p1, p2⟩ := C92_wave h (fun n c => if n = 0 ∧ c = firstRow (tableNorbs st.sublattices) b + j then (1 : K) else 0)
  have hb := h.lt hj
  have horb : ∀ b, b < locs.length → orbitals (run ops empty) (siteIn B sp locs 0 b).2 = (tableNorbs st.sublattices).getD b 0 :=
    fun b hb => (h.orbitals hb).symm
  -- all amplitudes are in the cell 0
  refine ⟨fun R α j' => if (R, α) = siteIn B sp locs 0 b ∧ j' = j then 1 else 0,
    fun n c => if n = 0 ∧ c = firstRow (tableNorbs st.sublattices) b + j then (1 : K) else 0, ?_, ?_, ?_⟩
  · intro R α hno j'
    exact if_neg fun e => hno 0 b hb e.1.symm
  · intro n b' j' hj'
    show (if _ then _ else _) = if _ then _ else _
    by_cases e : n = 0 ∧ firstRow (tableNorbs st.sublattices) b' + j' = firstRow (tableNorbs st.sublattices) b + j
    · obtain ⟨e1, e2⟩ := firstRow_inj hj' hj e.2
      rw [if_pos e, if_pos]
      rw [e.1, e1]
      exact ⟨rfl, e2⟩
    · rw [if_neg e, if_neg]
      rintro ⟨e1, e2⟩
      obtain ⟨e3, e4⟩ := h.siteIn_inj (h.lt hj') hb e1
      exact e ⟨e3, by rw [e4, e2]⟩
  · rw [crystal_elements (run ops empty) cast gs gos posOf ({b} : Finset Nat) (fun k => siteIn B sp locs 0 k)
      (by intro k hk k' hk' _; rw [Finset.mem_singleton] at hk hk'; rw [hk, hk'])
      (fun R α j' => if (R, α) = siteIn B sp locs 0 b ∧ j' = j then 1 else 0) (siteIn B sp locs d a) i'
      (fun hno j' => if_neg fun e => hno b (Finset.mem_singleton_self b) e.1.symm)
      (fun q _ t _ _ hno j' => if_neg fun e => hno b (Finset.mem_singleton_self b) e.1.symm)
      (fun q _ t _ _ hno j' => if_neg fun e => hno b (Finset.mem_singleton_self b) e.1.symm),
      Finset.sum_singleton, horb b hb, Finset.sum_eq_single j]
    · simp only [Prod.mk.eta, and_self, if_true, mul_one]
      rw [Finset.sum_eq_zero]
      · exact hne
      · intro c _
        rw [if_neg (by omega), if_neg (by omega), if_neg (by omega), mul_zero, mul_zero, mul_zero, add_zero, add_zero]
    · intro j' _ hj'
      rw [if_neg fun e => hj' e.2, mul_zero]
    · intro hj'
      exact absurd (Finset.mem_range.2 hj) hj'

end

/-! ## The orbital counts for kwant -/

theorem pick_some (norb : List Nat) (ids : List Int) (ns : List Nat) :
    pick norb (ids.map some) = .ok ns ↔ ids.map (fun id => norb[id.toNat]?) = ns.map some := by
  induction ids generalizing ns with
  | nil =>
    simp only [List.map_nil, pick, Res.ok.injEq]
    constructor
    · rintro rfl; rfl
    · intro h
      rcases ns with _ | ⟨n, ns⟩
      · rfl
      · simp at h
  | cons id ids ih =>
    simp only [List.map_cons, pick]
    rcases hn : norb[id.toNat]? with _ | n
    · simp only [reduceCtorEq, false_iff]
      rcases ns with _ | ⟨n, ns⟩ <;> simp
    · show Res.bind _ _ = _ ↔ _
      rcases hp : pick norb (ids.map some) with l | e | _
      · simp only [Res.bind, Res.ok.injEq]
        constructor
        · rintro rfl
          rw [List.map_cons, (ih l).1 hp]
        · intro h
          rcases ns with _ | ⟨n', ns⟩
          · simp at h
          · simp only [List.map_cons, List.cons.injEq, Option.some.injEq] at h
            have := (ih ns).2 h.2
            rw [hp, Res.ok.injEq] at this
            rw [h.1, this]
      all_goals
        simp only [Res.bind, reduceCtorEq, false_iff]
        intro h
        rcases ns with _ | ⟨n', ns⟩
        · simp at h
        · simp only [List.map_cons, List.cons.injEq, Option.some.injEq] at h
          have := (ih ns).2 h.2
          rw [hp] at this
          simp at this

/-- **C92**: when the orbital counts given to kwant are right.  The counts of all sites are those of the system if
and only if each sublattice with at least one site stands, in the list of runs, at the place which is its number.  The
runs are sorted by orbital count, and the numbers are given in the order of the definition of the sublattices. -/
theorem C92_norb_exact (t : Sublat.Table) :
    toNorb t = .ok (tableNorbs t) ↔ ∀ e ∈ t, 0 < e.numSites → (t[e.id.toNat]?).map (·.numOrb) = some e.numOrb := by
  unfold toNorb
  rw [Sublat.decompressed_eq, pick_some]
  have hc : ∀ k : Nat, (Sublat.orbitalCounts t)[k]? = (t[k]?).map Sublat.Elem.numOrb := by
    intro k
    unfold Sublat.orbitalCounts
    rw [List.getElem?_map]
  simp only [hc]
  have key : ∀ (f : Int → Option Nat) (l : Sublat.Table), (Sublat.tableLabels l).map f = (tableNorbs l).map some ↔
      ∀ e ∈ l, 0 < e.numSites → f e.id = some e.numOrb := by
    intro f l
    induction l with
    | nil => simp
    | cons e l ih =>
      rw [Sublat.tableLabels_cons, Sublat.tableNorbs_cons, List.map_append, List.map_append, List.map_replicate, List.map_replicate, List.forall_mem_cons, ← ih]
      have hn : (List.replicate e.numSites (f e.id) = List.replicate e.numSites (some e.numOrb)) ↔ (0 < e.numSites → f e.id = some e.numOrb) := by
        rw [List.replicate_inj]
        constructor
        · rintro ⟨-, h | h⟩ hp
          · omega
          · exact h
        · intro h
          rcases Nat.eq_zero_or_pos e.numSites with h0 | h0
          · exact ⟨rfl, Or.inl h0⟩
          · exact ⟨rfl, Or.inr (h h0)⟩
      rw [← hn]
      constructor
      · intro h
        exact List.append_inj h (by simp)
      · rintro ⟨h1, h2⟩
        rw [h1, h2]
  exact key (fun id => (t[id.toNat]?).map Sublat.Elem.numOrb) t

section
variable [AddMonoid C] [StarAddMonoid C] [DecidableEq C] [AddGroup P]
  {ops : List (Lattice.Lattice.Op C L)} {subs : List (String × Sublattice C L)} {hops : List (String × HoppingFamily C)}
  {sr hr : Registry C} {B : Base P} {sp : Spec P} {valid : List Bool} {i : Int} {shift : P} {posOf : Index3 → Nat → P}
  {st : Structure P} {locs : List Loc}

/-- **C92**: without modifiers the pair is right if the matrix of each hopping is Hermitian: for lattices with one
orbital, if the hopping energies are real. -/
theorem C92_plain [NonUnitalNonAssocRing K] [StarAddMonoid K] [DecidableEq K]
    (h : LeadOf ops subs hops sr hr B sp valid i shift posOf st locs) (cast : C → K) (maxBuffer : Nat) (hz : cast 0 = 0)
    (hbuf : ∀ q ∈ hops, q.2.energy.size ≤ maxBuffer)
    (hherm : ∀ q ∈ hops, q.2.energy.rows = q.2.energy.cols ∧
      ∀ i j, cast (entry q.2.energy i j) = star (cast (entry q.2.energy j i))) :
    ∃ h0 h1, makePair cast (leadSystem sr hr st shift) ⟨[], []⟩ maxBuffer = .ok (h0, h1) ∧
      ∀ a b i j, i < (tableNorbs st.sublattices).getD a 0 → j < (tableNorbs st.sublattices).getD b 0 →
        coeff h0 (firstRow (tableNorbs st.sublattices) a + i) (firstRow (tableNorbs st.sublattices) b + j)
          = element (run ops empty) cast [] [] posOf (siteIn B sp locs 1 a) (siteIn B sp locs 1 b) i j ∧
        coeff h1 (firstRow (tableNorbs st.sublattices) a + i) (firstRow (tableNorbs st.sublattices) b + j)
          = element (run ops empty) cast [] [] posOf (siteIn B sp locs 1 a) (siteIn B sp locs 0 b) i j := by
  have hu : Usable cast hops (⟨[], []⟩ : Modifiers K P) [] [] maxBuffer :=
    ⟨hz, hbuf, fun _ _ => .nil, fun _ => .nil⟩
  have hsq : SquareBack (run ops empty).hops B sp locs :=
    fun _ _ _ _ _ _ _ _ q hq _ _ _ _ _ => (hherm q (h.permHops.mem_iff.2 hq)).1
  have hself : SelfAdjointBack (run ops empty) cast [] posOf B sp (tableNorbs st.sublattices) locs :=
    fun _ _ q hq _ _ _ _ _ i j _ _ => (hherm q (h.permHops.mem_iff.2 hq)).2 i j
  obtain ⟨h0, a1, -, a3⟩ := C92_h0 h cast _ _ _ maxBuffer hu
  obtain ⟨h1, b1, -, b3⟩ := C92_h1_exact h cast _ _ _ maxBuffer hu hsq
  refine ⟨h0, h1, ?_, fun a b i j hi hj => ⟨a3 a b i j hi hj, b3.2 hself a b i j hi hj⟩⟩
  unfold makePair
  rw [a1, b1]
  rfl

/-- **C92**: every lead which can be attached is a `LeadOf`: for all lattices made through the API, foundations and
shapes of leads, if creating the attachment area succeeds then the lead has a structure and the theorems above
apply. -/
theorem C92_attached (ops : List (Lattice.Lattice.Op C L)) (subs : List (String × Sublattice C L))
    (hops : List (String × HoppingFamily C)) (hs : subs.Perm (run ops empty).subs) (hh : hops.Perm (run ops empty).hops)
    (ha : AliasesOK (run ops empty)) :
    ∃ sr hr cell, siteRegistry subs = .ok sr ∧ hoppingRegistry hops = .ok hr ∧ optimizedUnitCell subs hops = .ok cell ∧
      ∀ (B : Base P) (sp : Spec P) (valid v' : List Bool) (shift junk : P) (posOf : Index3 → Nat → P), B.cell = cell →
        Directed sp → Meets B sp → Sized B valid →
        (∀ l c, InBase B l → cell[l.sub]? = some c → B.pos[(flatIdx B.d l).toNat]? = some (posOf l.idx c.uniqueId)) →
        (∀ R α, posOf (R.add sp.shift) α = posOf R α + shift) →
        createArea B sp valid = .ok v' →
        ∃ st locs i, makeStructure B hops.length (nameMap hr) (· + shift) junk v' sp = .ok st ∧
          LeadOf ops subs hops sr hr B sp v' i shift posOf st locs ∧ 0 < locs.length := by
  obtain ⟨sr, hr, cell, h1, h2, h3, h4⟩ := Pipeline.parts_of_lattice ops subs hops hs hh ha
  refine ⟨sr, hr, cell, h1, h2, h3, ?_⟩
  intro B sp valid v' shift junk posOf hB hd hm hsz hpos hshift harea
  have hlen : hops.length = (run ops empty).hops.length := hh.length_eq
  obtain ⟨st, locs, i, e1, e2, e3⟩ := C58_after_area B sp hops.length (by rw [hB, hlen]; exact h4.cellOK) hd hm valid v' hsz harea
    (nameMap hr) (by simp [nameMap, h4.hopLen, hlen]) (· + shift) junk
  refine ⟨st, locs, i, e1, ⟨hs, hh, ha, h1, h2, by rw [hB]; exact h3, hd, e3, ?_, hshift⟩, ?_⟩
  · intro la hla c hc
    rw [hB] at hc
    exact hpos la c ((e3.sites la).1 hla).1.1.1 hc
  · obtain ⟨⟨l0, hl0⟩, -⟩ := accepted_columns hd hm valid v' hsz harea
    obtain ⟨⟨m, m1, -, m3⟩, -⟩ := e2
    have hax := m1.1.1 sp.axis.toNat hd.axis_lt
    rw [m3] at hax
    have hmem : along l0 sp.axis.toNat i ∈ locs := by
      refine (e3.sites _).2 ⟨hl0.along hd hax.1 hax.2, ?_⟩
      have := hd.axis_lt
      obtain h | h | h : sp.axis.toNat = 0 ∨ sp.axis.toNat = 1 ∨ sp.axis.toNat = 2 := by omega
      all_goals
        rw [h]
        rfl
    exact List.length_pos_of_mem hmem

end

/-! ## Concrete cases -/

namespace Demo

/-- The square lattice of `Demo.cell`. -/
def square : List (Lattice.Lattice.Op Int Unit) :=
  [.addSublattice "A" () (Mat.scalar 4), .registerHoppingEnergy "x" (Mat.scalar 3), .registerHoppingEnergy "y" (Mat.scalar 5),
   .addHopping ⟨1, 0, 0⟩ "A" "A" "x", .addHopping ⟨0, 1, 0⟩ "A" "A" "y"]

theorem square_aliases : AliasesOK (run square empty) where
  last := by
    have : ∀ p ∈ (run square empty).subs, p.2.aliasId = p.2.uniqueId := by decide
    intro i j p q hp _ hne
    exact absurd (this p (List.mem_of_getElem? hp)) hne
  root := by
    have : ∀ p ∈ (run square empty).subs, p.2.aliasId = p.2.uniqueId := by decide
    intro p _ q hq
    exact this q (List.mem_of_getElem? hq)

/-- The positions of the crystal. -/
def posOf (R : Index3) (_ : Nat) : Int × Int := (R.x, R.y)

theorem square_lead : ∃ sr hr st locs i, LeadOf square (run square empty).subs (run square empty).hops sr hr base one valid i (1, 0)
    posOf st locs ∧ locs.length = 2 := by
  obtain ⟨sr, hr, cell', h1, h2, h3, h4⟩ := Pipeline.parts_of_lattice square (run square empty).subs (run square empty).hops
    (.refl _) (.refl _) square_aliases
  have hcell : optimizedUnitCell (run square empty).subs (run square empty).hops = .ok base.cell := by decide +kernel
  have hnames : (hoppingRegistry (run square empty).hops).bind (fun hr => .ok (nameMap hr)) = .ok names := by decide +kernel
  rw [h2] at hnames
  simp only [Res.bind, Res.ok.injEq] at hnames
  obtain ⟨st, locs, i, e1, e2, e3⟩ := C58_after_area base one 2 cellOK directed.1 meets.1 valid valid sized area_one (nameMap hr)
    (by rw [hnames]; decide) (· + ((1, 0) : Int × Int)) (0, 0)
  refine ⟨sr, hr, st, locs, i, ⟨.refl _, .refl _, square_aliases, h1, h2, hcell, directed.1, e3, ?_, ?_⟩, ?_⟩
  · intro la hla c hc
    obtain ⟨⟨⟨⟨hb, hs⟩, -⟩, -⟩, -⟩ := (e3.sites la).1 hla
    have b0 := hb 0 (by omega)
    have b1 := hb 1 (by omega)
    have b2 := hb 2 (by omega)
    obtain ⟨⟨x, y, z⟩, s⟩ := la
    simp only [comp, extentOf, base, cell, List.length_cons, List.length_nil] at b0 b1 b2 hs
    obtain rfl : z = 0 := by omega
    obtain rfl : s = 0 := by omega
    have hall : ∀ x < 4, ∀ y < 7, base.pos[(flatIdx base.d ⟨⟨((x : Nat) : Int), ((y : Nat) : Int), 0⟩, 0⟩).toNat]?
        = some ((x : Int), (y : Int)) := by decide +kernel
    have := hall x.toNat (by omega) y.toNat (by omega)
    rw [Int.toNat_of_nonneg b0.1, Int.toNat_of_nonneg b1.1] at this
    exact this
  · intro R α
    have : one.shift = ⟨1, 0, 0⟩ := by decide
    rw [this]
    simp [posOf, Index3.add]
  · obtain ⟨st', e1', e2'⟩ := of_outcome (f := fun st => st.indices.length) (b := 2)
      (r := makeStructure base 2 names (· + ((1, 0) : Int × Int)) (0, 0) valid one) (by decide +kernel)
    rw [hnames, e1', Res.ok.injEq] at e1
    subst e1
    rw [e3.indices, List.length_map] at e2'
    exact e2'

/-- A chain of sites with one and two orbitals, with a hopping from the one to the other in the next cell. -/
def mixed : List (Lattice.Lattice.Op Int Unit) :=
  [.addSublattice "A" () (Mat.scalar 5), .addSublattice "B" () ⟨2, 2, fun _ _ => 0⟩,
   .registerHoppingEnergy "u" ⟨1, 2, fun _ j => 8 + j.val⟩, .addHopping ⟨1, 0, 0⟩ "A" "B" "u"]

/-- Four cells of it. -/
def mixedBase : Res (Base Int) :=
  (optimizedUnitCell (run mixed empty).subs (run mixed empty).hops).bind fun cell =>
    .ok ⟨Index3.zero, ⟨4, 1, 1⟩, cell, (List.range 8).map fun k => (k : Int)⟩

/-- A lead to the right. -/
def along : Spec Int := Spec.make 1 ⟨2, 0, 0⟩ ⟨6, 0, 0⟩ fun _ => true

/-- The coupling matrix of the lead. -/
def mixedH1 : Res (Csr Int) := do
  let sr ← siteRegistry (run mixed empty).subs
  let hr ← hoppingRegistry (run mixed empty).hops
  let B ← mixedBase
  let v ← createArea B along (List.replicate 8 true)
  let st ← makeStructure B 1 (nameMap hr) (· + 8) 0 v along
  makeH1 id (leadSystem sr hr st 8) ⟨[], []⟩ 2

end Demo

/-- The hypotheses of `C92_h0`, `C92_h1_exact`, `C92_infinite_partial`, `C92_bands_partial` and `C92_plain` are met by
a square lattice with a lead which is two sites wide. -/
example : ∃ sr hr st locs i,
    LeadOf Demo.square (run Demo.square empty).subs (run Demo.square empty).hops sr hr Demo.base Demo.one Demo.valid i (1, 0)
      Demo.posOf st locs ∧ locs.length = 2 ∧
    Usable (fun x : Int => (x : ℂ)) (run Demo.square empty).hops (⟨[], []⟩ : Modifiers ℂ (Int × Int)) [] [] 1 ∧
    SquareBack (run Demo.square empty).hops Demo.base Demo.one locs ∧
    SelfAdjointBack (run Demo.square empty) (fun x : Int => (x : ℂ)) [] Demo.posOf Demo.base Demo.one (tableNorbs st.sublattices) locs ∧
    Uniform ([] : List (ElemFn ℂ (Int × Int))) [] Demo.posOf Demo.one.shift ∧
    Reach (run Demo.square empty).hops Demo.one := by
  obtain ⟨sr, hr, st, locs, i, h, hl⟩ := Demo.square_lead
  have hsym : ∀ q ∈ (run Demo.square empty).hops, q.2.energy.rows = 1 ∧ q.2.energy.cols = 1 := by decide
  have hentry : ∀ q ∈ (run Demo.square empty).hops, ∀ i j, entry q.2.energy i j = entry q.2.energy j i := by
    intro q hq i j
    obtain ⟨r1, r2⟩ := hsym q hq
    unfold Hamiltonian.entry
    by_cases hi : i = 0 ∧ j = 0
    · rw [hi.1, hi.2]
    · rw [dif_neg (by omega), dif_neg (by omega)]
  refine ⟨sr, hr, st, locs, i, h, hl, ⟨by simp, by decide, fun _ _ => .nil, fun _ => .nil⟩, ?_, ?_, ⟨?_, ?_⟩, ?_⟩
  · intro _ _ _ _ _ _ _ _ q hq _ _ _ _ _
    rw [(hsym q hq).1, (hsym q hq).2]
  · intro _ _ q hq _ _ _ _ _ i j _ _
    show ((entry q.2.energy i j : Int) : ℂ) = star ((entry q.2.energy j i : Int) : ℂ)
    rw [hentry q hq i j]
    simp
  · intros; rfl
  · intros; rfl
  · unfold Reach
    decide

/-- **C92** is false for hoppings between sites with different numbers of orbitals.  The matrix of a hopping which
points out of the system is inserted without taking its transpose: its entries land on other sites, and here the
column -1 is written.  The crystal has the elements 8 and 9 between the two orbitals of B in the next cell and A. -/
theorem C92_orbitals_witness : Demo.mixedH1 = .ub ∧
    hopping id ([] : List (ElemFn Int Int)) (run Demo.mixed empty).hops (⟨1, 0, 0⟩, 1) (⟨0, 0, 0⟩, 0) 0 0 0 0 = 8 ∧
    hopping id ([] : List (ElemFn Int Int)) (run Demo.mixed empty).hops (⟨1, 0, 0⟩, 1) (⟨0, 0, 0⟩, 0) 0 0 1 0 = 9 := by
  refine ⟨?_, by decide +kernel, by decide +kernel⟩
  have : (match Demo.mixedH1 with | .ub => true | _ => false) = true := by decide +kernel
  rcases h : Demo.mixedH1 with _ | _ | _
  · rw [h] at this; simp at this
  · rw [h] at this; simp at this
  · rfl

/-- **C92**: the orbital counts for kwant are wrong for a lattice whose first sublattice has more orbitals than the
second one: the site of B comes first in the system and has one orbital, but is said to have two. -/
theorem C92_norb_witness : ∃ s, Pipeline.makeSystem
      (run ([.addSublattice "A" () ⟨2, 2, fun _ _ => 0⟩, .addSublattice "B" () (Mat.scalar 5)] :
        List (Lattice.Lattice.Op Int Unit)) empty).subs [] ⟨1, 1, 1⟩ ⟨none, none, none⟩ [true, true]
      (fun k => (k : Int)) 0 (fun _ => 0) = .ok s ∧
    tableNorbs s.sublattices = [1, 2] ∧ toNorb s.sublattices = .ok [2, 1] := by
  obtain ⟨s, e1, e2⟩ := Demo.of_outcome (f := fun s : Hamiltonian.System Int Int => (tableNorbs s.sublattices, toNorb s.sublattices))
    (b := ([1, 2], .ok [2, 1])) (r := Pipeline.makeSystem
      (run ([.addSublattice "A" () ⟨2, 2, fun _ _ => 0⟩, .addSublattice "B" () (Mat.scalar 5)] :
        List (Lattice.Lattice.Op Int Unit)) empty).subs [] ⟨1, 1, 1⟩ ⟨none, none, none⟩ [true, true]
      (fun k => (k : Int)) 0 (fun _ => 0)) (by decide +kernel)
  simp only [Prod.mk.injEq] at e2
  exact ⟨s, e1, e2.1, e2.2⟩

/-- `C92_norb_exact` applies to a table in which the counts are right. -/
example : toNorb [⟨0, 3, 1⟩, ⟨1, 2, 2⟩] = .ok [1, 1, 1, 2, 2] := by
  rw [show ([1, 1, 1, 2, 2] : List Nat) = tableNorbs [⟨0, 3, 1⟩, ⟨1, 2, 2⟩] from rfl, C92_norb_exact]
  decide

end Verif.Leads
