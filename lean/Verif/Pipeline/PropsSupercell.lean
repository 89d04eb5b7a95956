import Verif.Pipeline.PropsFolding

/-!
# C86: the bands of a supercell are the folded bands of the smaller cell
-/

namespace Verif.Pipeline

open Verif.Lattice (Sublattice HoppingFamily HoppingTerm Registry CellSite CellHopping Inv optimizedUnitCell)
open Verif.Lattice.Lattice (run empty allTerms)
open Verif.Foundation (Dims CellOK size sites locOf rank validPairs cellAt crystalSite hoppingsAt popOps
  siteEntries finalize)
open Verif.Sublat (tableNorbs)
open Verif.Sublat.Spec (firstRow)
open Verif.Hamiltonian
open Verif.Symmetry (Periods Supported cmul periodIndex stored Short InArea)
open Verif.Hopping (COO Csr HoppingBlocks)

variable {C L : Type}

/-! ## Phases of wave vectors -/

theorem shiftVec_add {n : Nat} (a : Fin n → Vec3) (S T : Index3) : shiftVec a (S.add T) = shiftVec a S + shiftVec a T := by
  unfold shiftVec
  rw [← Finset.sum_add_distrib]
  refine Finset.sum_congr rfl fun i _ => ?_
  rw [← add_smul]
  congr 1
  unfold Index3.comp Index3.add
  rcases i with ⟨_ | _ | i, hi⟩ <;> push_cast <;> rfl

theorem shiftVec_times {n : Nat} (a : Fin n → Vec3) (z : ℤ) (S : Index3) :
    shiftVec a (times3 z S) = (z : ℝ) • shiftVec a S := by
  unfold shiftVec
  rw [Finset.smul_sum]
  refine Finset.sum_congr rfl fun i _ => ?_
  rw [smul_smul]
  congr 1
  unfold Index3.comp times3
  rcases i with ⟨_ | _ | i, hi⟩ <;> push_cast <;> rfl

theorem shiftVec_zero {n : Nat} (a : Fin n → Vec3) : shiftVec a Index3.zero = 0 := by
  have : Index3.zero = times3 0 Index3.zero := by simp [times3, Index3.zero]
  rw [this, shiftVec_times]
  simp

theorem bloch_zero (k : Vec3) : bloch k 0 = 1 := by simp [bloch]

theorem bloch_sum (k x y : Vec3) : bloch k (x + y) = bloch k x * bloch k y := by
  unfold bloch
  rw [dotProduct_add, ← Complex.exp_add]
  congr 1
  push_cast
  ring

theorem bloch_zsmul (k x : Vec3) (z : ℤ) : bloch k ((z : ℝ) • x) = bloch k x ^ z := by
  unfold bloch
  rw [dotProduct_smul, ← Complex.exp_int_mul]
  congr 1
  rw [smul_eq_mul]
  push_cast
  ring

theorem bloch_unit (k x : Vec3) : star (bloch k x) * bloch k x = 1 := by
  unfold bloch
  rw [Complex.star_def, ← Complex.exp_conj, ← Complex.exp_add]
  simp

theorem bloch_ne (k x : Vec3) : bloch k x ≠ 0 := Complex.exp_ne_zero _

/-! ## The space of states -/

theorem State.zero [AddMonoid C] (l : Lattice.Lattice C L) (cast : C → ℂ) (gs : List (ElemFn ℂ Vec3))
    (gos : List (OnsiteFn ℂ Vec3)) (posOf : Index3 → Nat → Vec3) (here : Index3 → Nat → Prop) (p : Periods)
    (phase : Vec3 → ℂ) (shiftOf : Index3 → Vec3) (E : ℂ) :
    State l cast gs gos posOf here p phase shiftOf E (0 : Wave ℂ) := by
  refine ⟨fun R α j S _ => by simp, fun R α j h => absurd rfl h, fun R α i _ _ => ?_⟩
  have := crystal_smul l cast gs gos posOf 0 (0 : Wave ℂ) R α i
  rw [zero_mul] at this
  simp only [zero_mul] at this
  simp only [Pi.zero_apply, mul_zero]
  exact this

theorem State.add [AddMonoid C] {l : Lattice.Lattice C L} {cast : C → ℂ} {gs : List (ElemFn ℂ Vec3)}
    {gos : List (OnsiteFn ℂ Vec3)} {posOf : Index3 → Nat → Vec3} {here : Index3 → Nat → Prop} {p : Periods}
    {phase : Vec3 → ℂ} {shiftOf : Index3 → Vec3} {E : ℂ} {ψ φ : Wave ℂ}
    (h1 : State l cast gs gos posOf here p phase shiftOf E ψ)
    (h2 : State l cast gs gos posOf here p phase shiftOf E φ) :
    State l cast gs gos posOf here p phase shiftOf E (ψ + φ) := by
  refine ⟨?_, ?_, ?_⟩
  · intro R α j S hS
    simp only [Pi.add_apply, h1.quasi R α j S hS, h2.quasi R α j S hS]
    ring
  · intro R α j h
    by_cases h0 : ψ R α j = 0
    · refine h2.support R α j ?_
      intro h3
      apply h
      simp only [Pi.add_apply, h0, h3, add_zero]
    · exact h1.support R α j h0
  · intro R α i hh hi
    have := crystal_add l cast gs gos posOf ψ φ R α i
    rw [h1.eq R α i hh hi, h2.eq R α i hh hi, ← mul_add] at this
    exact this

theorem State.smul [AddMonoid C] {l : Lattice.Lattice C L} {cast : C → ℂ} {gs : List (ElemFn ℂ Vec3)}
    {gos : List (OnsiteFn ℂ Vec3)} {posOf : Index3 → Nat → Vec3} {here : Index3 → Nat → Prop} {p : Periods}
    {phase : Vec3 → ℂ} {shiftOf : Index3 → Vec3} {E : ℂ} {ψ : Wave ℂ}
    (h1 : State l cast gs gos posOf here p phase shiftOf E ψ) (c : ℂ) :
    State l cast gs gos posOf here p phase shiftOf E (c • ψ) := by
  refine ⟨?_, ?_, ?_⟩
  · intro R α j S hS
    simp only [Pi.smul_apply, smul_eq_mul, h1.quasi R α j S hS]
    ring
  · intro R α j h
    refine h1.support R α j ?_
    intro h3
    apply h
    simp only [Pi.smul_apply, h3, smul_zero]
  · intro R α i hh hi
    have := crystal_smul l cast gs gos posOf c ψ R α i
    rw [h1.eq R α i hh hi] at this
    simp only [Pi.smul_apply, smul_eq_mul]
    rw [mul_left_comm]
    exact this

/-- The states with energy `E`, as a subspace. -/
def states [AddMonoid C] (l : Lattice.Lattice C L) (cast : C → ℂ) (gs : List (ElemFn ℂ Vec3))
    (gos : List (OnsiteFn ℂ Vec3)) (posOf : Index3 → Nat → Vec3) (here : Index3 → Nat → Prop) (p : Periods)
    (phase : Vec3 → ℂ) (shiftOf : Index3 → Vec3) (E : ℂ) : Submodule ℂ (Wave ℂ) where
  carrier := {ψ | State l cast gs gos posOf here p phase shiftOf E ψ}
  add_mem' h1 h2 := State.add h1 h2
  zero_mem' := State.zero l cast gs gos posOf here p phase shiftOf E
  smul_mem' c _ h := State.smul h c

theorem State.move [AddMonoid C] {l : Lattice.Lattice C L} {cast : C → ℂ} {gs : List (ElemFn ℂ Vec3)}
    {gos : List (OnsiteFn ℂ Vec3)} {posOf : Index3 → Nat → Vec3} {here : Index3 → Nat → Prop} {p : Periods}
    {phase : Vec3 → ℂ} {shiftOf : Index3 → Vec3} {E : ℂ} {ψ : Wave ℂ}
    (h1 : State l cast gs gos posOf here p phase shiftOf E ψ) {S : Index3} (hinv : Invariant gs gos posOf S)
    (hhere : ∀ R α, here (R.sub S) α ↔ here R α) :
    State l cast gs gos posOf here p phase shiftOf E (moveMap S ψ) := by
  refine ⟨?_, ?_, ?_⟩
  · intro R α j T hT
    show ψ ((R.sub T).sub S) α j = _ * ψ (R.sub S) α j
    rw [Index3.sub_sub_comm, h1.quasi _ α j T hT]
  · intro R α j h
    have := h1.support (R.sub S) α j h
    rwa [hhere] at this
  · intro R α i hh hi
    have h2 := crystal_translate l cast hinv ψ R α i
    rw [h1.eq _ α i ((hhere R α).2 hh) hi] at h2
    exact h2

theorem move_int {w : Wave ℂ} {S : Index3} {x : ℂ} (hx : x ≠ 0) (h : moveMap S w = x • w) (z : ℤ) (R : Index3)
    (α j : Nat) : w (R.sub (times3 z S)) α j = x ^ z * w R α j := by
  have h' : ∀ R, w (R.sub S) α j = x * w R α j := fun R => congrFun (congrFun (congrFun h R) α) j
  induction z using Int.induction_on generalizing R with
  | zero => simp [times3, Index3.sub]
  | succ z ih =>
    have e : R.sub (times3 (z + 1) S) = (R.sub (times3 z S)).sub S := by
      simp only [times3, Index3.sub, Index3.mk.injEq]
      refine ⟨?_, ?_, ?_⟩ <;> ring
    rw [e, h', ih, zpow_add₀ hx, zpow_one]
    ring
  | pred z ih =>
    have e : (R.sub (times3 (-(z : ℤ) - 1) S)).sub S = R.sub (times3 (-(z : ℤ)) S) := by
      simp only [times3, Index3.sub, Index3.mk.injEq]
      refine ⟨?_, ?_, ?_⟩ <;> ring
    have h2 := h' (R.sub (times3 (-(z : ℤ) - 1) S))
    rw [e, ih] at h2
    rw [zpow_sub₀ hx, zpow_one, div_mul_eq_mul_div, eq_div_iff hx, h2]
    ring

/-! ## Periods -/

/-- One period along one axis, in cells. -/
def axisPeriod (p : Periods) : Nat → Index3
  | 0 => ⟨(periodIndex p).x, 0, 0⟩
  | 1 => ⟨0, (periodIndex p).y, 0⟩
  | _ => ⟨0, 0, (periodIndex p).z⟩

/-- The periods of the second system are multiples of those of the first (and both are periodic along the
same axes). -/
structure Multiple (M : Nat → Nat) (p P : Periods) : Prop where
  pos : ∀ i, 0 < M i
  x : P.x = p.x.map (· * M 0)
  y : P.y = p.y.map (· * M 1)
  z : P.z = p.z.map (· * M 2)

theorem Multiple.comp {M : Nat → Nat} {p P : Periods} (h : Multiple M p P) (i : Nat) (hi : i < 3) :
    Index3.comp (periodIndex P) i = Index3.comp (periodIndex p) i * M i := by
  have aux : ∀ (o : Option Nat) (m : Nat), (((o.map (· * m)).getD 0 : Nat) : ℤ) = ((o.getD 0 : Nat) : ℤ) * m := by
    intro o m
    cases o <;> simp
  match i with
  | 0 => simp only [Index3.comp, periodIndex, h.x, aux]
  | 1 => simp only [Index3.comp, periodIndex, h.y, aux]
  | 2 => simp only [Index3.comp, periodIndex, h.z, aux]
  | n + 3 => omega

theorem isPeriod_comp (p : Periods) (S : Index3) :
    IsPeriod p S ↔ ∀ i, i < 3 → Index3.comp (periodIndex p) i ∣ Index3.comp S i := by
  unfold IsPeriod
  constructor
  · rintro ⟨h0, h1, h2⟩ i hi
    match i with
    | 0 => exact h0
    | 1 => exact h1
    | 2 => exact h2
    | n + 3 => omega
  · intro h
    exact ⟨h 0 (by omega), h 1 (by omega), h 2 (by omega)⟩

theorem comp_axis (p : Periods) (i j : Nat) (hi : i < 3) (hj : j < 3) :
    Index3.comp (axisPeriod p i) j = if j = i then Index3.comp (periodIndex p) i else 0 := by
  match i, j with
  | 0, 0 => rfl
  | 0, 1 => rfl
  | 0, 2 => rfl
  | 1, 0 => rfl
  | 1, 1 => rfl
  | 1, 2 => rfl
  | 2, 0 => rfl
  | 2, 1 => rfl
  | 2, 2 => rfl
  | n + 3, _ => omega
  | _, n + 3 => omega

theorem comp_times (z : ℤ) (S : Index3) (i : Nat) : Index3.comp (times3 z S) i = z * Index3.comp S i := by
  unfold Index3.comp times3
  rcases i with _ | _ | i <;> rfl

theorem isPeriod_axis (p : Periods) (i : Nat) (hi : i < 3) : IsPeriod p (axisPeriod p i) := by
  rw [isPeriod_comp]
  intro j hj
  rw [comp_axis p i j hi hj]
  split
  · subst_vars; exact dvd_refl _
  · exact dvd_zero _

theorem Multiple.axis {M : Nat → Nat} {p P : Periods} (h : Multiple M p P) (i : Nat) (hi : i < 3) :
    times3 (M i) (axisPeriod p i) = axisPeriod P i := by
  have h0 := h.comp 0 (by omega)
  have h1 := h.comp 1 (by omega)
  have h2 := h.comp 2 (by omega)
  simp only [Index3.comp] at h0 h1 h2
  match i with
  | 0 => simp only [times3, axisPeriod, h0, mul_comm (M 0 : ℤ), zero_mul]
  | 1 => simp only [times3, axisPeriod, h1, mul_comm (M 1 : ℤ), zero_mul]
  | 2 => simp only [times3, axisPeriod, h2, mul_comm (M 2 : ℤ), zero_mul]
  | n + 3 => omega

theorem Multiple.isPeriod {M : Nat → Nat} {p P : Periods} (h : Multiple M p P) {S : Index3} (hS : IsPeriod P S) :
    IsPeriod p S := by
  rw [isPeriod_comp] at hS ⊢
  intro i hi
  have := hS i hi
  rw [h.comp i hi] at this
  exact (dvd_mul_right _ _).trans this

theorem isPeriod_split {p : Periods} {S : Index3} (hS : IsPeriod p S) : ∃ z : Nat → ℤ,
    S = ((times3 (z 0) (axisPeriod p 0)).add (times3 (z 1) (axisPeriod p 1))).add (times3 (z 2) (axisPeriod p 2)) := by
  rw [isPeriod_comp] at hS
  obtain ⟨z0, h0⟩ := hS 0 (by omega)
  obtain ⟨z1, h1⟩ := hS 1 (by omega)
  obtain ⟨z2, h2⟩ := hS 2 (by omega)
  refine ⟨fun i => if i = 0 then z0 else if i = 1 then z1 else z2, ?_⟩
  rcases S with ⟨x, y, z⟩
  simp only [Index3.comp] at h0 h1 h2
  simp only [times3, axisPeriod, Index3.add, Index3.mk.injEq, mul_zero, add_zero, zero_add, if_true, one_ne_zero,
    if_false, OfNat.ofNat_ne_zero, OfNat.ofNat_ne_one, h0, h1, h2]
  refine ⟨?_, ?_, ?_⟩ <;> ring

theorem dot_axis {n : Nat} (hn : n ≤ 3) (a b : Fin n → Vec3) (hb : reciprocal hn a = .ok b) (c : Fin n → ℝ)
    (p : Periods) (i : Fin n) :
    combine c b ⬝ᵥ shiftVec a (axisPeriod p i) = 2 * Real.pi * (c i * (Index3.comp (periodIndex p) i : ℤ)) := by
  unfold shiftVec
  rw [combine_dot hn a b hb, Finset.sum_eq_single i]
  · rw [comp_axis p i i (by omega) (by omega), if_pos rfl]
  · intro j _ hj
    rw [comp_axis p i j (by omega) (by omega), if_neg (fun e => hj (Fin.ext e))]
    simp
  · intro h
    exact absurd (Finset.mem_univ i) h

theorem bloch_extra (k G x : Vec3) (t : ℝ) (h : G ⬝ᵥ x = 2 * Real.pi * t) :
    bloch (k + G) x = bloch k x * Complex.exp (2 * Real.pi * Complex.I * t) := by
  unfold bloch
  rw [add_dotProduct, h, ← Complex.exp_add]
  congr 1
  push_cast
  ring

/-- The wave vectors of the smaller cell which belong to one wave vector of the supercell: the reciprocal
vectors of the supercell are added. -/
noncomputable def foldedVector {n : Nat} (b : Fin n → Vec3) (P : Periods) (k : Vec3) (t : Fin n → Nat) : Vec3 :=
  k + combine (fun j => (t j : ℝ) / (Index3.comp (periodIndex P) j : ℤ)) b

/-- States of the supercell and states of the smaller cell. -/
theorem folded_states [AddMonoid C] (l : Lattice.Lattice C L) (cast : C → ℂ) (gs : List (ElemFn ℂ Vec3))
    (gos : List (OnsiteFn ℂ Vec3)) (posOf : Index3 → Nat → Vec3) (here : Index3 → Nat → Prop) (p P : Periods)
    (M : Nat → Nat) (hM : Multiple M p P) {n : Nat} (hn : n ≤ 3) (a b : Fin n → Vec3) (hb : reciprocal hn a = .ok b)
    (hdim : ∀ i, i < 3 → n ≤ i → Index3.comp (periodIndex p) i = 0)
    (hinv : ∀ S, IsPeriod p S → Invariant gs gos posOf S)
    (hhere : ∀ S, IsPeriod p S → ∀ R α, here (R.sub S) α ↔ here R α) (k : Vec3) (E : ℂ) :
    (∃ ψ : Wave ℂ, ψ ≠ 0 ∧ State l cast gs gos posOf here P (bloch k) (shiftVec a) E ψ) ↔
    ∃ t : Fin n → Nat, (∀ j, t j < M j) ∧ ∃ ψ : Wave ℂ, ψ ≠ 0 ∧
      State l cast gs gos posOf here p (bloch (foldedVector b P k t)) (shiftVec a) E ψ := by
  constructor
  · rintro ⟨ψ, hψ0, hψ⟩
    -- one axis after the other
    have step : ∀ i, i < 3 → ∀ (S : Submodule ℂ (Wave ℂ)), S ≤ states l cast gs gos posOf here P (bloch k) (shiftVec a) E →
        (∀ v ∈ S, moveMap (axisPeriod p i) v ∈ S) → ∀ v ∈ S, v ≠ 0 →
        ∃ x : ℂ, x ^ M i = bloch k (shiftVec a (axisPeriod P i)) ∧
          ∃ w ∈ S, w ≠ 0 ∧ moveMap (axisPeriod p i) w = x • w := by
      intro i hi S hS hT v hv hv0
      refine exists_eigen _ S hT (M i) (hM.pos i) _ ?_ v hv hv0
      intro u hu
      funext R α j
      rw [moveMap_pow, hM.axis i hi]
      exact (hS hu).quasi R α j _ (isPeriod_axis P i hi)
    have comm : ∀ (S T : Index3) (w : Wave ℂ), moveMap S (moveMap T w) = moveMap T (moveMap S w) := by
      intro S T w
      funext R α j
      show w ((R.sub S).sub T) α j = w ((R.sub T).sub S) α j
      rw [Index3.sub_sub_comm]
    set V := states l cast gs gos posOf here P (bloch k) (shiftVec a) E with hV
    have hVm : ∀ i, i < 3 → ∀ v ∈ V, moveMap (axisPeriod p i) v ∈ V := by
      intro i hi v hv
      exact State.move hv (hinv _ (isPeriod_axis p i hi)) (hhere _ (isPeriod_axis p i hi))
    obtain ⟨x0, hx0, w0, hw0, hw0n, he0⟩ := step 0 (by omega) V le_rfl (hVm 0 (by omega)) ψ hψ hψ0
    let V1 : Submodule ℂ (Wave ℂ) := V ⊓ LinearMap.ker (moveMap (axisPeriod p 0) - x0 • LinearMap.id)
    have mem1 : ∀ v, v ∈ V1 ↔ v ∈ V ∧ moveMap (axisPeriod p 0) v = x0 • v := by
      intro v
      rw [Submodule.mem_inf, LinearMap.mem_ker, LinearMap.sub_apply, sub_eq_zero]
      rfl
    obtain ⟨x1, hx1, w1, hw1, hw1n, he1⟩ := step 1 (by omega) V1 inf_le_left (by
      intro v hv
      rw [mem1] at hv ⊢
      exact ⟨hVm 1 (by omega) v hv.1, by rw [comm, hv.2, map_smul]⟩) w0 ((mem1 _).2 ⟨hw0, he0⟩) hw0n
    let V2 : Submodule ℂ (Wave ℂ) := V1 ⊓ LinearMap.ker (moveMap (axisPeriod p 1) - x1 • LinearMap.id)
    have mem2 : ∀ v, v ∈ V2 ↔ v ∈ V1 ∧ moveMap (axisPeriod p 1) v = x1 • v := by
      intro v
      rw [Submodule.mem_inf, LinearMap.mem_ker, LinearMap.sub_apply, sub_eq_zero]
      rfl
    obtain ⟨x2, hx2, w, hw, hwn, he2⟩ := step 2 (by omega) V2 (inf_le_left.trans inf_le_left) (by
      intro v hv
      rw [mem2, mem1] at hv ⊢
      exact ⟨⟨hVm 2 (by omega) v hv.1.1, by rw [comm, hv.1.2, map_smul]⟩, by rw [comm, hv.2, map_smul]⟩)
      w1 ((mem2 _).2 ⟨hw1, he1⟩) hw1n
    rw [mem2, mem1] at hw
    obtain ⟨⟨hwV, f0⟩, f1⟩ := hw
    let x : Nat → ℂ := fun i => if i = 0 then x0 else if i = 1 then x1 else x2
    have hx : ∀ i, i < 3 → x i ^ M i = bloch k (shiftVec a (axisPeriod P i)) ∧
        moveMap (axisPeriod p i) w = x i • w := by
      intro i hi
      match i with
      | 0 => exact ⟨hx0, f0⟩
      | 1 => exact ⟨hx1, f1⟩
      | 2 => exact ⟨hx2, he2⟩
      | n + 3 => omega
    have hxne : ∀ i, i < 3 → x i ≠ 0 := by
      intro i hi h0
      have := (hx i hi).1
      rw [h0, zero_pow (hM.pos i).ne'] at this
      exact bloch_ne _ _ this.symm
    -- roots of unity
    have hroot : ∀ j : Fin n, ∃ t, t < M j ∧
        x j = bloch k (shiftVec a (axisPeriod p j)) * Complex.exp (2 * Real.pi * Complex.I * ((t : ℝ) / (M j : ℝ) : ℝ)) := by
      intro j
      have hj3 : j.val < 3 := by omega
      have hMj : (M j : ℂ) ≠ 0 := by exact_mod_cast (hM.pos j).ne'
      haveI : NeZero (M j) := ⟨(hM.pos j).ne'⟩
      have hprim := Complex.isPrimitiveRoot_exp (M j) (hM.pos j).ne'
      obtain ⟨t, ht, hte⟩ := hprim.eq_pow_of_pow_eq_one
        (ξ := x j / bloch k (shiftVec a (axisPeriod p j))) (by
          rw [div_pow, (hx j hj3).1, ← hM.axis j hj3, shiftVec_times, bloch_zsmul, zpow_natCast,
            div_self (pow_ne_zero _ (bloch_ne _ _))])
      refine ⟨t, ht, ?_⟩
      rw [eq_div_iff (bloch_ne _ _), ← Complex.exp_nat_mul] at hte
      rw [← hte, mul_comm]
      congr 2
      push_cast
      field_simp
    choose t ht hxt using hroot
    refine ⟨t, ht, w, hwn, ?_, hwV.support, hwV.eq⟩
    -- phases of the axes
    have hax : ∀ i, i < 3 → bloch (foldedVector b P k t) (shiftVec a (axisPeriod p i)) = x i := by
      intro i hi
      by_cases hz : Index3.comp (periodIndex p) i = 0
      · have hz0 : axisPeriod p i = Index3.zero := by
          match i with
          | 0 => simp only [Index3.comp] at hz; simp [axisPeriod, Index3.zero, hz]
          | 1 => simp only [Index3.comp] at hz; simp [axisPeriod, Index3.zero, hz]
          | 2 => simp only [Index3.comp] at hz; simp [axisPeriod, Index3.zero, hz]
          | n + 3 => omega
        rw [hz0, shiftVec_zero, bloch_zero]
        have h1 := (hx i hi).2
        rw [hz0] at h1
        have h2 : moveMap Index3.zero w = w := by
          funext R α j
          show w (R.sub Index3.zero) α j = w R α j
          congr 1
          simp [Index3.sub, Index3.zero]
        rw [h2] at h1
        have h3 : ((1 : ℂ) - x i) • w = 0 := by rw [sub_smul, one_smul, ← h1, sub_self]
        rcases smul_eq_zero.1 h3 with h4 | h4
        · exact (sub_eq_zero.1 h4)
        · exact absurd h4 hwn
      · have hin : i < n := by
          by_contra hc
          exact hz (hdim i hi (by omega))
        have h1 := dot_axis hn a b hb (fun j => (t j : ℝ) / (Index3.comp (periodIndex P) j : ℤ)) p ⟨i, hin⟩
        have h2 := bloch_extra k _ _ _ h1
        have h3 := hxt ⟨i, hin⟩
        simp only at h2 h3
        unfold foldedVector
        rw [h2, h3, hM.comp i hi]
        congr 3
        have : ((Index3.comp (periodIndex p) i : ℤ) : ℝ) ≠ 0 := by exact_mod_cast hz
        have hMi : (M i : ℝ) ≠ 0 := by exact_mod_cast (hM.pos i).ne'
        push_cast
        field_simp
    intro R α j S hS
    obtain ⟨z, rfl⟩ := isPeriod_split hS
    have e : ∀ S0 S1 S2 : Index3, R.sub ((S0.add S1).add S2) = ((R.sub S0).sub S1).sub S2 := by
      intro S0 S1 S2
      simp only [Index3.sub, Index3.add, Index3.mk.injEq]; omega
    rw [e, move_int (hxne 2 (by omega)) (hx 2 (by omega)).2, move_int (hxne 1 (by omega)) (hx 1 (by omega)).2,
      move_int (hxne 0 (by omega)) (hx 0 (by omega)).2]
    simp only [shiftVec_add, shiftVec_times, bloch_sum, bloch_zsmul]
    rw [hax 0 (by omega), hax 1 (by omega), hax 2 (by omega)]
    ring
  · rintro ⟨t, -, ψ, hψ0, hψ⟩
    refine ⟨ψ, hψ0, ?_, hψ.support, hψ.eq⟩
    intro R α j S hS
    rw [hψ.quasi R α j S (hM.isPeriod hS)]
    congr 1
    have hS' := hS
    rw [isPeriod_comp] at hS'
    have : ∀ j : Fin n, ∃ z : ℤ, (t j : ℝ) / ((Index3.comp (periodIndex P) j : ℤ) : ℝ) * ((Index3.comp S j : ℤ) : ℝ) = (z : ℝ) := by
      intro j
      obtain ⟨z, hz⟩ := hS' j (by omega)
      by_cases h0 : Index3.comp (periodIndex P) j = 0
      · refine ⟨0, ?_⟩
        rw [hz, h0]
        simp
      · refine ⟨t j * z, ?_⟩
        have : ((Index3.comp (periodIndex P) j : ℤ) : ℝ) ≠ 0 := by exact_mod_cast h0
        rw [hz]
        push_cast
        field_simp
    choose z hz using this
    refine bloch_add k _ _ (∑ j, z j) ?_
    unfold shiftVec
    rw [combine_dot hn a b hb]
    congr 1
    push_cast
    exact Finset.sum_congr rfl fun j _ => hz j

theorem Copy.periodic {d : Dims} {cell : List CellSite} {p : Periods} {valid : List Bool} {S : Index3}
    (hS : IsPeriod p S) (R : Index3) (α : Nat) : Copy d cell p valid (R.sub S) α ↔ Copy d cell p valid R α := by
  have aux : ∀ ck : Index3, IsPeriod p (ck.sub (R.sub S)) ↔ IsPeriod p (ck.sub R) := by
    intro ck
    have e : ck.sub (R.sub S) = (ck.sub R).add S := by
      simp only [Index3.sub, Index3.add, Index3.mk.injEq]; omega
    rw [e]
    constructor
    · intro h
      have := h.sub hS
      have e2 : ((ck.sub R).add S).sub S = ck.sub R := by simp [Index3.sub, Index3.add]
      rwa [e2] at this
    · exact fun h => h.add hS
  unfold Copy
  simp only [aux]

/-- Everything about a system made from a lattice which the theorems of C50 and C86 ask for. -/
structure Made [AddMonoid C] [StarAddMonoid C] [DecidableEq C] (ops : List (Lattice.Lattice.Op C L))
    (subs : List (String × Sublattice C L)) (hops : List (String × HoppingFamily C)) {n : Nat} (a : Fin n → Vec3)
    (cell : List CellSite) (x0 : Nat → Vec3) (d : Dims) (p : Periods) (valid : List Bool) (s : System C Vec3) : Prop where
  len : valid.length = (sites d subs.length).length
  fits : enabled p = true → Symmetry.Fits d p
  short : enabled p = true → ∀ q ∈ allTerms (run ops empty).hops, Short p q.2.rel
  inArea : enabled p = true → InArea d p subs.length valid
  made : ∃ pos junk, makeSystem subs hops d p valid pos junk (shiftVec a) = .ok s ∧
    ∀ k ck, valid[k]? = some true → crystalSite d cell k = some ck → pos k = x0 ck.2.uniqueId + shiftVec a ck.1

section
variable [AddMonoid C] [StarAddMonoid C] [DecidableEq C]
  (ops : List (Lattice.Lattice.Op C L)) (subs : List (String × Sublattice C L))
  (hops : List (String × HoppingFamily C))
  (hs : subs.Perm (run ops empty).subs) (hh : hops.Perm (run ops empty).hops)
  (ha : AliasesOK (run ops empty))
  (cell : List CellSite) (hcell : optimizedUnitCell subs hops = .ok cell)
  {n : Nat} (a : Fin n → Vec3) (x0 : Nat → Vec3)
  (cast : C → ℂ) (hc0 : cast 0 = 0) (mods : Modifiers ℂ Vec3) (gs : List (ElemFn ℂ Vec3))
  (gos : List (OnsiteFn ℂ Vec3)) (maxBuffer : Nat) (simple : Bool)
  (hbuf : ∀ q ∈ hops, q.2.energy.size ≤ maxBuffer)
  (hch : ∀ r c, Chain r c mods.hopping gs) (hon : ∀ n, OnsiteChain n mods.onsite gos)
include hs hh ha hcell hc0 hbuf hch hon

/-- **C86** (bands).  The eigenvalues of the matrix of a system at a wave vector are exactly the energies of
the states of the infinite crystal on the copies of its sites which are multiplied with `exp(i k·S)` by a
translation by *minus* the period `S`. -/
theorem C86_bands (d : Dims) (p : Periods) (valid : List Bool) (s : System C Vec3)
    (hm : Made ops subs hops a cell x0 d p valid s)
    (hgs : ∀ name e x y S i j, IsPeriod p S →
      finalEnergy gs name e (x - shiftVec a S) (y - shiftVec a S) i j = finalEnergy gs name e x y i j)
    (hgos : ∀ name e x S i j, IsPeriod p S →
      finalOnsite gos name e (x - shiftVec a S) i j = finalOnsite gos name e x i j) (k : Vec3) :
    ∃ m, make cast s mods maxBuffer (bloch k) simple = .ok m ∧
      ∀ E, IsEigenvalue (Sublat.hamiltonianSize s.sublattices) m E ↔
        ∃ ψ : Wave ℂ, ψ ≠ 0 ∧ State (run ops empty) cast gs gos (fun R α => x0 α + shiftVec a R)
          (Copy d cell p valid) p (bloch k) (shiftVec a) E ψ := by
  obtain ⟨pos, junk, hsys, hpos⟩ := hm.made
  refine C86_spectrum ops subs hops hs hh ha d p valid hm.len hm.fits pos junk (shiftVec a) s hsys cast hc0 hm.short
    hm.inArea mods gs gos maxBuffer (bloch k) (bloch_zero k) (shiftVec_zero a) simple hbuf hch hon
    (fun S _ => bloch_unit k _) (fun S T _ _ => by rw [shiftVec_add, bloch_sum]) cell hcell _ ⟨hpos, ?_, ?_⟩ ?_
  · intro R α S _
    have e : R = (R.sub S).add S := (Index3.sub_add_cancel R S).symm
    have h := shiftVec_add a (R.sub S) S
    rw [← e] at h
    show x0 α + shiftVec a (R.sub S) = x0 α + shiftVec a R - shiftVec a S
    rw [h]
    abel
  · exact fun name e x y S i j hS => hgs name e x y S i j hS
  · exact fun name e x S i j hS => hgos name e x S i j hS

/-- **C86** (folding).  Two systems made from the same lattice, with the same modifiers, which describe the
same repeated structure: the second with periods which are `M` times those of the first (a supercell).  The
modifiers respect the smaller periods.  Then the eigenvalues of the supercell at a wave vector `k` are exactly
the eigenvalues of the smaller cell at the wave vectors `k + Σ (tⱼ / Nⱼ) bⱼ`, `0 ≤ tⱼ < Mⱼ`, where `Nⱼ` is the
number of cells in one period of the supercell and the `bⱼ` are the vectors of `reciprocal_vectors`. -/
theorem C86_folding (hn : n ≤ 3) (b : Fin n → Vec3) (hb : reciprocal hn a = .ok b)
    (d : Dims) (p : Periods) (valid : List Bool) (s : System C Vec3)
    (hm : Made ops subs hops a cell x0 d p valid s)
    (d' : Dims) (p' : Periods) (valid' : List Bool) (s' : System C Vec3)
    (hm' : Made ops subs hops a cell x0 d' p' valid' s')
    (M : Nat → Nat) (hM : Multiple M p p')
    (hdim : ∀ i, i < 3 → n ≤ i → Index3.comp (periodIndex p) i = 0)
    (hsame : ∀ R α, Copy d' cell p' valid' R α ↔ Copy d cell p valid R α)
    (hgs : ∀ name e x y S i j, IsPeriod p S →
      finalEnergy gs name e (x - shiftVec a S) (y - shiftVec a S) i j = finalEnergy gs name e x y i j)
    (hgos : ∀ name e x S i j, IsPeriod p S →
      finalOnsite gos name e (x - shiftVec a S) i j = finalOnsite gos name e x i j) (k : Vec3) :
    ∃ m', make cast s' mods maxBuffer (bloch k) simple = .ok m' ∧
      ∀ E, IsEigenvalue (Sublat.hamiltonianSize s'.sublattices) m' E ↔
        ∃ t : Fin n → Nat, (∀ j, t j < M j) ∧
          ∃ m, make cast s mods maxBuffer (bloch (foldedVector b p' k t)) simple = .ok m ∧
            IsEigenvalue (Sublat.hamiltonianSize s.sublattices) m E := by
  obtain ⟨m', hm1, hm2⟩ := C86_bands ops subs hops hs hh ha cell hcell a x0 cast hc0 mods gs gos maxBuffer simple
    hbuf hch hon d' p' valid' s' hm' (fun name e x y S i j hS => hgs name e x y S i j (hM.isPeriod hS))
    (fun name e x S i j hS => hgos name e x S i j (hM.isPeriod hS)) k
  refine ⟨m', hm1, ?_⟩
  intro E
  have hcopy : Copy d' cell p' valid' = Copy d cell p valid := by
    funext R α
    exact propext (hsame R α)
  rw [hm2, hcopy]
  have hinv : ∀ S, IsPeriod p S → Invariant gs gos (fun R α => x0 α + shiftVec a R) S := by
    intro S hS
    have h : ∀ R α, x0 α + shiftVec a (R.sub S) = x0 α + shiftVec a R - shiftVec a S := by
      intro R α
      have e : R = (R.sub S).add S := (Index3.sub_add_cancel R S).symm
      have h := shiftVec_add a (R.sub S) S
      rw [← e] at h
      rw [h]
      abel
    constructor
    · intro name e R R' α β i j
      simp only [h, hgs _ _ _ _ _ _ _ hS]
    · intro name e R α i j
      simp only [h, hgos _ _ _ _ _ _ hS]
  rw [folded_states (run ops empty) cast gs gos _ (Copy d cell p valid) p p' M hM hn a b hb hdim hinv
    (fun S hS R α => Copy.periodic hS R α) k E]
  constructor
  · rintro ⟨t, ht, hψ⟩
    obtain ⟨m, h1, h2⟩ := C86_bands ops subs hops hs hh ha cell hcell a x0 cast hc0 mods gs gos maxBuffer simple
      hbuf hch hon d p valid s hm hgs hgos (foldedVector b p' k t)
    exact ⟨t, ht, m, h1, (h2 E).2 hψ⟩
  · rintro ⟨t, ht, m, h1, h2⟩
    obtain ⟨m0, h3, h4⟩ := C86_bands ops subs hops hs hh ha cell hcell a x0 cast hc0 mods gs gos maxBuffer simple
      hbuf hch hon d p valid s hm hgs hgos (foldedVector b p' k t)
    rw [h1, Res.ok.injEq] at h3
    subst h3
    exact ⟨t, ht, (h4 E).1 h2⟩
end

/-! ## Example -/

theorem chain_site (cell : List CellSite)
    (hcell : optimizedUnitCell (run chain empty).subs (run chain empty).hops = .ok cell) :
    (∀ k ck, crystalSite ⟨1, 1, 1⟩ cell k = some ck → k < 2 → ck.1 = ⟨0, 0, 0⟩ ∧ ck.2.uniqueId < 2) ∧
    (∀ α, α < 2 → ∃ k ck, k < 2 ∧ crystalSite ⟨1, 1, 1⟩ cell k = some ck ∧ ck.1 = ⟨0, 0, 0⟩ ∧ ck.2.uniqueId = α) ∧
    (∀ k ck, crystalSite ⟨2, 1, 1⟩ cell k = some ck → k < 4 → ck.1.y = 0 ∧ ck.1.z = 0 ∧ ck.2.uniqueId < 2) ∧
    (∀ α, α < 2 → ∀ e : ℤ, e = 0 ∨ e = 1 →
      ∃ k ck, k < 4 ∧ crystalSite ⟨2, 1, 1⟩ cell k = some ck ∧ ck.1 = ⟨e, 0, 0⟩ ∧ ck.2.uniqueId = α) := by
  have h1 : (match optimizedUnitCell (run chain empty).subs (run chain empty).hops with
      | .ok cell => (List.range 2).map fun k => (crystalSite ⟨1, 1, 1⟩ cell k).map fun c => (c.1, c.2.uniqueId)
      | _ => []) = [some (⟨0, 0, 0⟩, 0), some (⟨0, 0, 0⟩, 1)] := by decide +kernel
  have h2 : (match optimizedUnitCell (run chain empty).subs (run chain empty).hops with
      | .ok cell => (List.range 4).map fun k => (crystalSite ⟨2, 1, 1⟩ cell k).map fun c => (c.1, c.2.uniqueId)
      | _ => []) = [some (⟨0, 0, 0⟩, 0), some (⟨1, 0, 0⟩, 0), some (⟨0, 0, 0⟩, 1), some (⟨1, 0, 0⟩, 1)] := by
    decide +kernel
  rw [hcell] at h1 h2
  simp only [List.range, List.range.loop, List.map_cons, List.map_nil, List.cons.injEq, and_true,
    Option.map_eq_some_iff, Prod.mk.injEq] at h1 h2
  obtain ⟨⟨c0, e0, f0, g0⟩, ⟨c1, e1, f1, g1⟩⟩ := h1
  obtain ⟨⟨d0, i0, j0, k0⟩, ⟨d1, i1, j1, k1⟩, ⟨d2, i2, j2, k2⟩, ⟨d3, i3, j3, k3⟩⟩ := h2
  refine ⟨?_, ?_, ?_, ?_⟩
  · intro k ck hck hk
    have : k = 0 ∨ k = 1 := by omega
    rcases this with rfl | rfl
    · rw [e0, Option.some.injEq] at hck; subst hck; exact ⟨f0, by omega⟩
    · rw [e1, Option.some.injEq] at hck; subst hck; exact ⟨f1, by omega⟩
  · intro α hα
    have : α = 0 ∨ α = 1 := by omega
    rcases this with rfl | rfl
    · exact ⟨0, c0, by omega, e0, f0, g0⟩
    · exact ⟨1, c1, by omega, e1, f1, g1⟩
  · intro k ck hck hk
    have : k = 0 ∨ k = 1 ∨ k = 2 ∨ k = 3 := by omega
    rcases this with rfl | rfl | rfl | rfl
    · rw [i0, Option.some.injEq] at hck; subst hck; rw [j0]; exact ⟨rfl, rfl, by omega⟩
    · rw [i1, Option.some.injEq] at hck; subst hck; rw [j1]; exact ⟨rfl, rfl, by omega⟩
    · rw [i2, Option.some.injEq] at hck; subst hck; rw [j2]; exact ⟨rfl, rfl, by omega⟩
    · rw [i3, Option.some.injEq] at hck; subst hck; rw [j3]; exact ⟨rfl, rfl, by omega⟩
  · intro α hα e he
    have : α = 0 ∨ α = 1 := by omega
    rcases this with rfl | rfl <;> rcases he with rfl | rfl
    · exact ⟨0, d0, by omega, i0, j0, k0⟩
    · exact ⟨1, d1, by omega, i1, j1, k1⟩
    · exact ⟨2, d2, by omega, i2, j2, k2⟩
    · exact ⟨3, d3, by omega, i3, j3, k3⟩

/-- The chain as a system with one and with two cells per period, with the position of the second site of the
cell half-way between two cells. -/
theorem chain_made (cell : List CellSite) (hcell : optimizedUnitCell (run chain empty).subs (run chain empty).hops = .ok cell) :
    (∃ s, Made chain (run chain empty).subs (run chain empty).hops (![![1, 0, 0]] : Fin 1 → Vec3) cell
      (fun α => ![(α : ℝ) / 2, 0, 0]) ⟨1, 1, 1⟩ ⟨some 1, none, none⟩ [true, true] s) ∧
    (∃ s, Made chain (run chain empty).subs (run chain empty).hops (![![1, 0, 0]] : Fin 1 → Vec3) cell
      (fun α => ![(α : ℝ) / 2, 0, 0]) ⟨2, 1, 1⟩ ⟨some 2, none, none⟩ [true, true, true, true] s) := by
  have hrel : ∀ q ∈ allTerms (run chain empty).hops, |q.2.rel.x| ≤ 1 := by decide
  have hshort : ∀ N, ∀ q ∈ allTerms (run chain empty).hops, 1 ≤ N → Short ⟨some N, none, none⟩ q.2.rel := by
    intro N q hq hN
    refine ⟨fun _ => ?_, fun h => by simp at h, fun h => by simp at h⟩
    exact Or.inl (hrel q hq)
  have hmake := makeSystem_eq (P := Vec3) chain (run chain empty).subs (run chain empty).hops (.refl _) (.refl _)
    chain_aliases
  obtain ⟨sr, hr, cell', -, hP, h3⟩ := hmake
  have hcl : cell'.length = 2 := hP.cellLen
  have hf1 : Symmetry.Fits ⟨1, 1, 1⟩ ⟨some 1, none, none⟩ := by
    refine ⟨?_, ?_, ?_⟩ <;> intro n hn <;> simp at hn
    subst hn
    decide
  have hf2 : Symmetry.Fits ⟨2, 1, 1⟩ ⟨some 2, none, none⟩ := by
    refine ⟨?_, ?_, ?_⟩ <;> intro n hn <;> simp at hn
    subst hn
    decide
  constructor
  · obtain ⟨bs, -, b2, -⟩ := h3 ⟨1, 1, 1⟩ ⟨some 1, none, none⟩ [true, true]
      (by rw [hcl]; rfl) (fun _ => hf1)
      (fun k => ![(uidAt ⟨1, 1, 1⟩ cell k : ℝ) / 2, 0, 0] + shiftVec (![![1, 0, 0]] : Fin 1 → Vec3) (locOf ⟨1, 1, 1⟩ k).idx) 0
      (shiftVec ![![1, 0, 0]])
    rw [if_neg (by decide)] at b2
    refine ⟨_, rfl, fun _ => hf1, fun _ q hq => hshort 1 q hq (by omega), ?_, _, _, b2, ?_⟩
    · intro _ k x hx _
      have : ∀ x ∈ sites ⟨1, 1, 1⟩ 2, (Symmetry.area ⟨1, 1, 1⟩ ⟨some 1, none, none⟩).contains x.loc.idx = true := by
        decide
      exact this x (List.mem_of_getElem? hx)
    · intro k ck _ hck
      rw [← crystalSite_uid hck, ← crystalSite_fst hck]
  · obtain ⟨bs, -, b2, -⟩ := h3 ⟨2, 1, 1⟩ ⟨some 2, none, none⟩ [true, true, true, true]
      (by rw [hcl]; rfl) (fun _ => hf2)
      (fun k => ![(uidAt ⟨2, 1, 1⟩ cell k : ℝ) / 2, 0, 0] + shiftVec (![![1, 0, 0]] : Fin 1 → Vec3) (locOf ⟨2, 1, 1⟩ k).idx) 0
      (shiftVec ![![1, 0, 0]])
    rw [if_neg (by decide)] at b2
    refine ⟨_, rfl, fun _ => hf2, fun _ q hq => hshort 2 q hq (by omega), ?_, _, _, b2, ?_⟩
    · intro _ k x hx _
      have : ∀ x ∈ sites ⟨2, 1, 1⟩ 2, (Symmetry.area ⟨2, 1, 1⟩ ⟨some 2, none, none⟩).contains x.loc.idx = true := by
        decide
      exact this x (List.mem_of_getElem? hx)
    · intro k ck _ hck
      rw [← crystalSite_uid hck, ← crystalSite_fst hck]

/-- The hypotheses of C86 hold for the chain with one and with two cells per period: the bands of the latter at
`k` are those of the former at `k` and at `k` plus half the reciprocal vector. -/
example : ∃ (b : Fin 1 → Vec3) (s s' : System Int Vec3), reciprocal (by decide) (![![1, 0, 0]] : Fin 1 → Vec3) = .ok b ∧
    ∀ k, ∃ m', make (fun c : Int => (c : ℂ)) s' ⟨[], []⟩ 2 (bloch k) true = .ok m' ∧
      ∀ E, IsEigenvalue (Sublat.hamiltonianSize s'.sublattices) m' E ↔
        ∃ t : Fin 1 → Nat, (∀ j, t j < 2) ∧
          ∃ m, make (fun c : Int => (c : ℂ)) s ⟨[], []⟩ 2 (bloch (foldedVector b ⟨some 2, none, none⟩ k t)) true = .ok m ∧
            IsEigenvalue (Sublat.hamiltonianSize s.sublattices) m E := by
  have hb : ∃ b, reciprocal (by decide) (![![1, 0, 0]] : Fin 1 → Vec3) = .ok b := by
    unfold reciprocal
    rw [if_neg]
    · exact ⟨_, rfl⟩
    · rw [Matrix.det_fin_one]
      simp [vectorMatrix]
  obtain ⟨b, hb⟩ := hb
  obtain ⟨sr, hr, cell, hcell, -, -⟩ := makeSystem_eq (P := Vec3) chain (run chain empty).subs
    (run chain empty).hops (.refl _) (.refl _) chain_aliases
  obtain ⟨⟨s, hs⟩, ⟨s', hs'⟩⟩ := chain_made cell hcell
  obtain ⟨h1, h2, h3, h4⟩ := chain_site cell hcell
  refine ⟨b, s, s', hb, fun k => ?_⟩
  have hM : Multiple (fun i => if i = 0 then 2 else 1) ⟨some 1, none, none⟩ ⟨some 2, none, none⟩ :=
    ⟨fun i => by split <;> omega, rfl, rfl, rfl⟩
  have hv2 : ∀ k : Nat, [true, true][k]? = some true → k < 2 := fun k h => (List.getElem?_eq_some_iff.1 h).1
  have hv4 : ∀ k : Nat, [true, true, true, true][k]? = some true → k < 4 := fun k h => (List.getElem?_eq_some_iff.1 h).1
  have hv2' : ∀ k : Nat, k < 2 → [true, true][k]? = some true := by decide
  have hv4' : ∀ k : Nat, k < 4 → [true, true, true, true][k]? = some true := by decide
  obtain ⟨m', e1, e2⟩ := C86_folding chain _ _ (.refl _) (.refl _) chain_aliases cell hcell _ _ (fun c : Int => (c : ℂ)) (by simp)
    ⟨[], []⟩ [] [] 2 true (by decide) (fun _ _ => .nil) (fun _ => .nil) (by decide) b hb _ _ _ s hs _ _ _ s' hs' _ hM
    (by
      intro i hi hi'
      have : i = 1 ∨ i = 2 := by omega
      rcases this with rfl | rfl <;> rfl)
    (by
      intro R α
      constructor
      · rintro ⟨k, ck, hk, hck, rfl, hp⟩
        obtain ⟨f1, f2, f3⟩ := h3 k ck hck (hv4 k hk)
        obtain ⟨k2, ck2, g1, g2, g3, g4⟩ := h2 _ f3
        refine ⟨k2, ck2, hv2' k2 g1, g2, g4, ?_⟩
        obtain ⟨p1, p2, p3⟩ := hp
        rw [g3]
        simp only [Index3.sub, Option.getD_none, Nat.cast_zero, zero_dvd_iff, f1, f2] at p2 p3
        exact ⟨by simp, by simpa [Index3.sub] using p2, by simpa [Index3.sub] using p3⟩
      · rintro ⟨k, ck, hk, hck, rfl, hp⟩
        obtain ⟨f1, f2⟩ := h1 k ck hck (hv2 k hk)
        obtain ⟨k2, ck2, g1, g2, g3, g4⟩ := h4 _ f2 (R.x % 2) (by omega)
        refine ⟨k2, ck2, hv4' k2 g1, g2, g4, ?_⟩
        obtain ⟨p1, p2, p3⟩ := hp
        rw [g3]
        simp only [Index3.sub, Option.getD_none, Nat.cast_zero, zero_dvd_iff, f1] at p2 p3
        refine ⟨?_, by simpa [Index3.sub] using p2, by simpa [Index3.sub] using p3⟩
        simp only [Index3.sub, Option.getD_some, Nat.cast_ofNat]
        omega)
    (fun _ _ _ _ _ _ _ _ => rfl) (fun _ _ _ _ _ _ _ => rfl) k
  refine ⟨m', e1, fun E => ?_⟩
  rw [e2]
  constructor
  · rintro ⟨t, ht, m, f1, f2⟩
    exact ⟨t, fun j => by have := ht j; rw [Subsingleton.elim j 0] at this ⊢; exact this, m, f1, f2⟩
  · rintro ⟨t, ht, m, f1, f2⟩
    exact ⟨t, fun j => by have := ht j; rw [Subsingleton.elim j 0] at this ⊢; exact this, m, f1, f2⟩

end Verif.Pipeline
