import Verif.Kpm.PythonKpm
import Verif.Kpm.PropsConvergence
import Verif.Binding.PropsNames
import Verif.Binding.PropsSweepResult

/-!
# C94: the interface in Python gives each density of states to the right site, and its own implementation agrees with the C++ one
-/

namespace Verif.Kpm.Py

open Finset
open Verif.Numeric
open Verif.Hopping (Csr)
open Verif.Sublat
open Verif.Binding

variable {n : Nat}

/-! ## The implementation in Python -/

theorem put_ok {l : List ℂ} {i : Nat} (h : i < l.length) (v : ℂ) : put l i v = .ok (l.set i v) := if_pos h

theorem item_ok {l : List ℂ} {i : Nat} {v : ℂ} (h : l[i]? = some v) : item l i = .ok v := by
  unfold item; rw [h]

theorem rescale_eq (s : Scale ℝ) (H : Matrix (Fin n) (Fin n) ℂ) : rescale s H = (2 : ℂ) • scaledMat s H := by
  unfold rescale scaledMat
  rw [smul_smul]
  congr 1

theorem scaledMat_hermitian {H : Matrix (Fin n) (Fin n) ℂ} (hH : H.IsHermitian) (s : Scale ℝ) : (scaledMat s H).IsHermitian := by
  unfold scaledMat Matrix.IsHermitian
  rw [Matrix.conjTranspose_smul, Matrix.conjTranspose_sub, Matrix.conjTranspose_smul, Matrix.conjTranspose_one, hH]
  simp

/-- **C94** (moments).  The loop in Python computes `<r|T_k((H - b) / a)|r>`, the zeroth halved, for every Hermitian matrix, vector and even number of moments. -/
theorem C94_moments {s : Scale ℝ} {H : Matrix (Fin n) (Fin n) ℂ} (hH : H.IsHermitian) (r : Fin n → ℂ) {num : Nat} (h2 : 2 ≤ num) (heven : num % 2 = 0) :
    diagonalMoments num r (rescale s H) = .ok (momentList s H r num) := by
  have hS := scaledMat_hermitian hH s
  set T := scaledMat s H with hT
  have hA : rescale s H = (2 : ℂ) • T := rescale_eq s H
  have hr1 : (1 / 2 : ℂ) • act (rescale s H) r = chebVec T r 1 := by
    rw [hA, act_smul, smul_smul, chebVec_one]
    norm_num
  set mom := diagMoment (1 / 2 : ℂ) T r with hmom
  have hm0 : mom 0 = inner r r * (1 / 2) := by
    rw [hmom]
    unfold diagMoment
    rw [if_pos rfl, chebVec_zero, smul_eq_mul, mul_comm]
  have hm1 : mom 1 = inner (chebVec T r 1) r := by
    rw [hmom, diagMoment_pos (by norm_num), chebVec_one, inner_act T hS]
  have D0 : Done num 0 mom (List.replicate num 0) := ⟨by simp, by omega⟩
  have D1 := D0
  unfold diagonalMoments
  simp only
  rw [hr1, put_ok (by simp; omega), Res.bind_ok, put_ok (by simp; omega), Res.bind_ok]
  have key := fun hstep => foldlM_inv (step (rescale s H))
    (fun k l => l.moments.length = num ∧ (∀ j, j < 2 * k → l.moments[j]? = some (mom j)) ∧ l.r0 = chebVec T r (k - 1) ∧ l.r1 = chebVec T r k)
    (num / 2 - 1) 1 hstep ⟨r, chebVec T r 1, ((List.replicate num 0).set 0 (inner r r * (1 / 2))).set 1 (inner (chebVec T r 1) r)⟩
    ⟨by simp, by
      intro j hj
      have : j = 0 ∨ j = 1 := by omega
      rcases this with rfl | rfl
      · simp [hm0, show 0 < num by omega]
      · simp [hm1, show 1 < num by omega], by rw [chebVec_zero], rfl⟩
  obtain ⟨l, e, i1, i2, -, -⟩ := key (by
    rintro k ⟨r0, r1, ms⟩ hk1 hk ⟨a1, a2, a3, a4⟩
    simp only at a1 a2 a3 a4
    subst a3 a4
    have hk2 : act (rescale s H) (chebVec T r k) - chebVec T r (k - 1) = chebVec T r (k + 1) := by
      have := chebVec_add_two T r (k - 1)
      rw [show k - 1 + 2 = k + 1 by omega, show k - 1 + 1 = k by omega] at this
      rw [this, hA]
    have de := doubling_even T hS r (1 / 2 : ℂ) (by norm_num) k
    have do' := doubling_odd T hS r k
    unfold step
    simp only
    rw [hk2, item_ok (a2 0 (by omega)), Res.bind_ok, put_ok (by omega), Res.bind_ok,
      item_ok (v := mom 1) (by rw [List.getElem?_set_ne (by omega)]; exact a2 1 (by omega)), Res.bind_ok, put_ok (by simp; omega), Res.bind_ok]
    refine ⟨_, rfl, by simp [a1], ?_, by simp, rfl⟩
    intro j hj
    simp only
    by_cases h1 : j = 2 * k + 1
    · subst h1
      rw [List.getElem?_set_self (by simp; omega), hm1, do', hmom, diagMoment_pos (by omega)]
    · rw [List.getElem?_set_ne (Ne.symm h1)]
      by_cases h3 : j = 2 * k
      · subst h3
        rw [List.getElem?_set_self (by omega)]
        congr 1
        rw [hm0, mul_comm (inner r r), hmom, diagMoment_pos (by omega), ← de, smul_eq_mul]
      · rw [List.getElem?_set_ne (Ne.symm h3)]
        exact a2 j (by omega))
  rw [e, Res.bind_ok]
  show Res.ok l.moments = _
  congr 1
  exact Done.all ⟨i1, fun j hj => i2 j (by omega)⟩

theorem reconstruct_eq (s : Scale ℝ) (moments : List ℂ) (energy : ℝ) : reconstruct s moments energy = spectralDensity s moments energy := by
  unfold reconstruct spectralDensity densityAt Scale.apply
  simp only
  have : 2 / (s.a * Real.pi) = 2 / Real.pi / s.a := by rw [div_div, mul_comm]
  rw [this, pow_two]

theorem starter_eq (i : Fin n) : starter i.val = (unitVec i : Fin n → ℂ) := by
  funext j
  unfold starter unitVec
  simp only [Fin.ext_iff]

/-- **C94** (one row).  The density in Python is the KPM expansion of the local density of states. -/
theorem C94_ldos {s : Scale ℝ} {h : Csr ℂ} (hH : (matrixOf n h).IsHermitian) (ha : s.a ≠ 0) (g : Nat → Nat → ℝ) {num : Nat} (h2 : 2 ≤ num) (heven : num % 2 = 0)
    (i : Fin n) (energy : ℝ) (he : -1 < s.apply energy ∧ s.apply energy < 1) :
    ldos g s (matrixOf n h) num i.val energy = .ok (densitySpec s (matrixOf n h) g num energy i) := by
  unfold ldos
  rw [if_neg ha, if_pos i.isLt, starter_eq, C94_moments hH _ h2 heven, Res.bind_ok, reconstruct_eq, densitySpec_momentList hH g num i energy he]

theorem mapM_ok {α β : Type} (l : List α) (f : α → Res β) (v : α → β) (h : ∀ a ∈ l, f a = .ok (v a)) : l.mapM f = .ok (l.map v) := by
  induction l with
  | nil => rfl
  | cons a l ih =>
    rw [List.mapM_cons, h a (by simp), Res.bind_ok, ih fun b hb => h b (by simp [hb]), Res.bind_ok]
    rfl

/-- **C94** (agreement).  The implementation in Python and every possible result of the C++ one, for the same scaling factors and number of moments, are
the same: for every system, position, label, energy inside of the bounds, kernel, storage format, choice of algorithms, number of threads,
batch size and schedule. -/
theorem C94_agree [DecidableEq ℂ] {R : Type} [LinearOrder R] (ops : List Spec.AddOp) (hops : Spec.Consistent ops)
    (hv : verify (runAdds ops) (Spec.norbs ops).length = .ok ()) (hpos : ∀ k ∈ Spec.norbs ops, 0 < k) (dist : Nat → R) (target : Option Int)
    (ht : ∀ t ∈ target, t ∈ Spec.labels ops) (hne : Spec.norbs ops ≠ []) {s : Scale ℝ} {h : Csr ℂ} {cfg : AlgorithmConfig}
    (hsize : n = (Spec.norbs ops).sum) (S : ∀ first : Fin n, ComplexSetup s h cfg first) {f : Format ℂ n ℂ} (hf : f.Aligned)
    (g : Nat → Nat → ℝ) {num : Nat} (h4 : num % 4 = 2) {W bs : Nat} (hW : 0 < W) (hbs : 0 < bs) (junk : Nat → ℂ) (reduce : Bool)
    (energy : ℝ) (he : -1 < s.apply energy ∧ s.apply energy < 1) {row : Res (List ℝ)}
    (hrow : CalcLdos f cfg g s h num W bs junk (runAdds ops) (Spec.norbs ops).length dist target reduce energy row) :
    calcLdos g s (matrixOf n h) num (runAdds ops) (Spec.norbs ops).length dist target reduce energy = row := by
  obtain ⟨i, norb, hi, -, -, et⟩ := C62_targets ops hops hv dist target ht hne
  have hnorb : 0 < norb := hpos norb (List.mem_of_getElem? hi)
  have hlast : Spec.firstRow (Spec.norbs ops) i + norb ≤ n := by
    obtain ⟨hlt, hget⟩ := List.getElem?_eq_some_iff.1 hi
    have h1 : ((Spec.norbs ops).take (i + 1)).sum ≤ (Spec.norbs ops).sum := (List.take_sublist _ _).sum_le_sum fun _ _ => Nat.zero_le _
    rw [List.take_succ_eq_append_getElem hlt, List.sum_append, hget] at h1
    simp only [List.sum_cons, List.sum_nil, Nat.add_zero] at h1
    unfold Spec.firstRow
    omega
  let orbital : Fin norb → Fin n := fun k => ⟨Spec.firstRow (Spec.norbs ops) i + k.val, by omega⟩
  have erows : List.range' (Spec.firstRow (Spec.norbs ops) i) norb = (List.ofFn orbital).map (·.val) := by
    refine List.ext_getElem (by simp) fun k h1 h2 => ?_
    simp [orbital]
  obtain ⟨m, rfl⟩ : ∃ m, norb = m + 1 := ⟨norb - 1, by omega⟩
  have hR := S (orbital 0)
  have e1 : ∀ a ∈ (List.ofFn orbital).map (·.val), ldos g s (matrixOf n h) num a energy =
      .ok (if ha : a < n then densitySpec s (matrixOf n h) g num energy ⟨a, ha⟩ else 0) := by
    intro a ha
    obtain ⟨j, -, rfl⟩ := List.mem_map.1 ha
    rw [dif_pos j.isLt]
    exact C94_ldos hR.2.2.1 hR.1.ne' g (by omega) (by omega) j energy he
  have e2 : ((List.ofFn orbital).map (·.val)).map (fun a => if ha : a < n then densitySpec s (matrixOf n h) g num energy ⟨a, ha⟩ else 0) =
      (List.ofFn orbital).map (densitySpec s (matrixOf n h) g num energy) := by
    rw [List.map_map]
    refine List.map_congr_left fun j _ => ?_
    simp
  unfold calcLdos
  rw [et, Res.bind_ok, erows, mapM_ok _ _ _ e1, Res.bind_ok, e2]
  unfold CalcLdos at hrow
  simp only [et] at hrow
  obtain ⟨r, hr, rfl⟩ := hrow
  rw [erows, List.ofFn_succ] at hr
  rw [coreLdos_eq hR _ hf g h4 hW hbs junk energy he hr, Res.bind_ok, ← List.ofFn_succ]
  unfold reduceRow
  rw [List.length_map, List.length_ofFn]
  cases reduce
  · simp
  · by_cases hm : 1 < m + 1
    · simp only [if_pos hm, true_and]
      rfl
    · have : m = 0 := by omega
      subst this
      simp

/-- **C94** (scaling factors).  For the same bounds both implementations use the same scaling factors, unless the center of the band is not zero but smaller
than one part in ten thousand of its half width: then the C++ implementation takes zero. -/
theorem C94_scale (emin emax : ℝ) (h : emin ≠ emax) : Scale.ofBounds emin emax = .ok (scale emin emax) ↔
    (scale emin emax).b = 0 ∨ 1 / 10000 ≤ |(scale emin emax).b / (scale emin emax).a| := by
  have ha : (scale emin emax).a ≠ 0 := by
    unfold scale
    simp only
    have : emax - emin ≠ 0 := sub_ne_zero.2 (Ne.symm h)
    positivity
  have e : Scale.ofBounds emin emax = if |(scale emin emax).b / (scale emin emax).a| < 1 / 10000 then .ok ⟨(scale emin emax).a, 0⟩ else .ok (scale emin emax) := by
    unfold Scale.ofBounds
    simp only
    rw [if_neg (by exact ha)]
    have : (1 / 100 * (1 / 100) : ℝ) = 1 / 10000 := by norm_num
    rw [this]
    rfl
  rw [e]
  by_cases hc : |(scale emin emax).b / (scale emin emax).a| < 1 / 10000
  · rw [if_pos hc]
    constructor
    · intro h1
      rw [Res.ok.injEq] at h1
      exact Or.inl (by rw [← h1])
    · rintro (h1 | h1)
      · congr 1
        rw [← h1]
      · exact absurd hc (not_lt.2 h1)
  · rw [if_neg hc]
    simp only [true_iff]
    exact Or.inr (not_lt.1 hc)

/-! ## Bounds of the implementation in Python -/

/-- **C94** (bounds).  The bounds of the first calculation (or the given ones) are used ever after, whatever models are assigned. -/
theorem C94_bounds {M : Type} (eigs : M → ℝ × ℝ) (k : Impl M ℝ) (ops : List (Op M)) :
    (k.range.1 ≠ k.range.2 → (ops.foldl (Impl.run eigs) k).range = k.range) ∧
    ((eigs k.model).1 ≠ (eigs k.model).2 → k.range.1 = k.range.2 → ((Op.calc :: ops).foldl (Impl.run eigs) k).range = eigs k.model) := by
  have key : ∀ (ops : List (Op M)) (k : Impl M ℝ), k.range.1 ≠ k.range.2 → (ops.foldl (Impl.run eigs) k).range = k.range := by
    intro ops
    induction ops with
    | nil => intro k _; rfl
    | cons o ops ih =>
      intro k hk
      rw [List.foldl_cons]
      have h1 : (Impl.run eigs k o).range = k.range := by
        rcases o with m | _
        · rfl
        · show (findBounds eigs k).range = _
          unfold findBounds
          rw [if_pos hk]
      rw [ih _ (by rw [h1]; exact hk), h1]
  refine ⟨key ops k, fun h1 h2 => ?_⟩
  rw [List.foldl_cons]
  have h3 : Impl.run eigs k Op.calc = ⟨k.model, eigs k.model⟩ := by
    show findBounds eigs k = _
    unfold findBounds
    rw [if_neg (by simpa using h2)]
  rw [h3, key ops _ h1]

/-- **C94, witness**: after `kpm.model = other`, the implementation in Python scales the Hamiltonian of the new model by the bounds of the old one: its
eigenvalues need not be in the interval of the expansion. -/
theorem C94_bounds_witness : ∃ (eigs : Bool → ℝ × ℝ) (k : Impl Bool ℝ), let k' := [Op.calc, Op.setModel true, Op.calc].foldl (Impl.run eigs) k
    k'.model = true ∧ eigs true = (-10, 10) ∧ k'.range = (-1, 1) ∧ 1 < (scale k'.range.1 k'.range.2).apply 10 := by
  refine ⟨fun m => if m then (-10, 10) else (-1, 1), ⟨false, 0, 0⟩, ?_⟩
  have h := (C94_bounds (fun m : Bool => if m then ((-10 : ℝ), (10 : ℝ)) else (-1, 1)) ⟨false, 0, 0⟩ [Op.setModel true, Op.calc]).2 (by norm_num) rfl
  have h' : ([Op.calc, Op.setModel true, Op.calc].foldl (Impl.run fun m : Bool => if m then ((-10 : ℝ), (10 : ℝ)) else (-1, 1)) ⟨false, 0, 0⟩).range = (-1, 1) := by
    rw [h]; simp
  refine ⟨?_, by simp, h', ?_⟩
  · simp only [List.foldl_cons, List.foldl_nil]
    show (findBounds _ _).model = true
    unfold findBounds
    split <;> rfl
  · rw [h']
    unfold scale Scale.apply
    norm_num

/-! ## Shape of the results -/

/-- **C94** (shape, exactly).  `calc_ldos(reduce=False)` has one row per energy and one column per orbital, as documented, and can be reduced, if and only if there are
several energies and several orbitals. -/
theorem C94_shape (rows cols : Nat) : (squeezed rows cols = [rows, cols] ↔ rows ≠ 1 ∧ cols ≠ 1) ∧
    ((∃ l, reducedShape (squeezed rows cols) = .ok l) ↔ rows ≠ 1 ∧ cols ≠ 1) ∧ squeezed rows 1 = [rows] := by
  unfold squeezed
  by_cases h1 : rows = 1 <;> by_cases h2 : cols = 1 <;> simp [h1, h2, reducedShape]

/-! ## Spatial density of states -/

theorem trues_filter (m : List Bool) (i : Nat) : Slicing.trues m i = ((List.range m.length).filter fun j => m[j]? == some true).map (· + i) := by
  induction m generalizing i with
  | nil => rfl
  | cons b m ih =>
    rw [List.length_cons, List.range_succ_eq_map, List.filter_cons]
    have e : (List.filter (fun j => (b :: m)[j]? == some true) (List.map Nat.succ (List.range m.length))).map (· + i) = Slicing.trues m (i + 1) := by
      rw [ih (i + 1), List.filter_map, List.map_map]
      have : ((fun j => (b :: m)[j]? == some true) ∘ Nat.succ) = fun j => m[j]? == some true := by
        funext j
        simp
      rw [this]
      refine List.map_congr_left fun j _ => ?_
      simp only [Function.comp, Nat.succ_eq_add_one]
      omega
    unfold Slicing.trues
    cases b
    · simp only [List.getElem?_cons_zero, Bool.false_eq_true, if_false]
      simp only [show ((some false : Option Bool) == some true) = false from rfl, Bool.false_eq_true, if_false]
      exact e.symm
    · simp only [List.getElem?_cons_zero, if_true, beq_self_eq_true, List.map_cons, Nat.zero_add]
      rw [e]

theorem gather_trues {α : Type} (p : α → Bool) (l pre : List α) : Slicing.gather (pre ++ l) (Slicing.trues (l.map p) pre.length) = l.filter p := by
  induction l generalizing pre with
  | nil => rfl
  | cons a l ih =>
    have h := ih (pre ++ [a])
    rw [List.append_assoc, List.singleton_append, List.length_append, List.length_singleton] at h
    rw [List.map_cons, List.filter_cons]
    unfold Slicing.trues
    cases hp : p a
    · simp only [Bool.false_eq_true, if_false]
      exact h
    · simp only [if_true]
      unfold Slicing.gather at h ⊢
      rw [List.filterMap_cons_some (b := a) (by simp), h]

theorem gather_map {α : Type} (d : α) (l : List α) (ps : List Nat) (h : ∀ p ∈ ps, p < l.length) : Slicing.gather l ps = ps.map fun p => l.getD p d := by
  unfold Slicing.gather
  induction ps with
  | nil => rfl
  | cons p ps ih =>
    have hp := h p (by simp)
    rw [List.filterMap_cons_some (List.getElem?_eq_getElem hp), List.map_cons, ih fun q hq => h q (by simp [hq])]
    simp [List.getD_eq_getElem?_getD, hp]

/-- **C94** (sites).  The sites of the structure are exactly those for which the C++ function computes the density, in the same order. -/
theorem C94_sites (ids : List Int) (names : List Names.Name) (hnd : names.Nodup) (contains : List Bool) (hc : contains.length = ids.length) (o : Names.Name)
    (target : Option Int) (ht : lookup names o = .ok target) :
    spatialSites ids names contains o = (List.range ids.length).filter fun i => contains[i]? == some true && (target.isNone || ids[i]? == target) := by
  have hsm : Slicing.trues contains 0 = (List.range ids.length).filter fun j => contains[j]? == some true := by
    rw [trues_filter, hc]; simp
  unfold spatialSites
  simp only
  by_cases ho : o = []
  · rw [if_pos ho]
    unfold lookup at ht
    rw [if_pos ho, Res.ok.injEq] at ht
    subst ht
    rw [hsm]
    simp
  · rw [if_neg ho]
    unfold lookup at ht
    rw [if_neg ho] at ht
    rcases hf : names.findIdx? (fun n => n == o) with _ | k
    · rw [hf] at ht; simp at ht
    rw [hf, Res.ok.injEq] at ht
    subst ht
    have hk : names[k]? = some o := by
      obtain ⟨h1, h2, -⟩ := List.findIdx?_eq_some_iff_getElem.1 hf
      rw [List.getElem?_eq_getElem h1]
      simp only [beq_iff_eq] at h2
      rw [h2]
    have hlt : ∀ p ∈ Slicing.trues contains 0, p < ids.length := by
      intro p hp
      rw [hsm, List.mem_filter, List.mem_range] at hp
      exact hp.1
    have hd : Names.dictGet (Names.nameMap names) o = some (k : Int) := (Names.dictGet_nameMap names hnd o k).2 ⟨k, rfl, hk⟩
    have heq : (⟨Slicing.gather ids (Slicing.trues contains 0), Names.nameMap names⟩ : Names.AliasArray).eq o =
        (Slicing.trues contains 0).map fun p => ids.getD p 0 == (k : Int) := by
      unfold Names.AliasArray.eq
      simp only
      rw [hd]
      simp only
      unfold Names.eqNum
      rw [gather_map 0 _ _ hlt, List.map_map]
      rfl
    rw [heq]
    have := gather_trues (fun p => ids.getD p 0 == (k : Int)) (Slicing.trues contains 0) []
    rw [List.nil_append, List.length_nil] at this
    rw [this, hsm, List.filter_filter]
    refine List.filter_congr fun i hi => ?_
    rw [List.mem_range] at hi
    simp [List.getD_eq_getElem?_getD, List.getElem?_eq_getElem hi, Bool.and_comm]

/-- **C94** (spatial density of states).  Every possible result of `calc_spatial_ldos` for one energy has one value for each site of the structure which comes with it,
and this value is the density of states of this site. -/
theorem C94_spatial [DecidableEq ℂ] (ops : List Spec.AddOp) (hv : verify (runAdds ops) (Spec.labels ops).length = .ok ())
    (names : List Names.Name) (hnd : names.Nodup) (contains : List Bool) (hc : contains.length = (Spec.labels ops).length)
    (o : Names.Name) (target : Option Int) (hl : lookup names o = .ok target) (ht : ∀ t ∈ target, t ∈ Spec.labels ops)
    {s : Scale ℝ} {h : Csr ℂ} {cfg : AlgorithmConfig} (hsize : n = (Spec.labels ops).length)
    (S : ∀ first : Fin n, ComplexSetup s h cfg first) {f : Format ℂ n ℂ} (hf : f.Aligned)
    (g : Nat → Nat → ℝ) {num : Nat} (h4 : num % 4 = 2) {W bs : Nat} (hW : 0 < W) (hbs : 0 < bs) (junk : Nat → ℂ)
    (energy : ℝ) (he : -1 < s.apply energy ∧ s.apply energy < 1) {row : Res (List ℝ)}
    (hsome : spatialSites (Spec.labels ops) names contains o ≠ [])
    (hrow : CalcSpatialLdos f cfg g s h num W bs junk false contains (runAdds ops) (Spec.labels ops).length target energy row) :
    ∃ values, row = .ok values ∧ values.length = (spatialSites (Spec.labels ops) names contains o).length ∧
      ∀ (c i : Nat), (spatialSites (Spec.labels ops) names contains o)[c]? = some i →
        contains[i]? = some true ∧ (∀ t ∈ target, (Spec.labels ops)[i]? = some t) ∧
        ∃ hi : i < n, values[c]? = some (densitySpec s (matrixOf n h) g num energy ⟨i, hi⟩) := by
  have hs := C94_sites (Spec.labels ops) names hnd contains hc o target hl
  have hmem : ∀ i ∈ spatialSites (Spec.labels ops) names contains o, i < n ∧ contains[i]? = some true ∧ ∀ t ∈ target, (Spec.labels ops)[i]? = some t := by
    intro i hi
    rw [hs, List.mem_filter, List.mem_range, Bool.and_eq_true, Bool.or_eq_true] at hi
    refine ⟨by omega, by simpa using hi.2.1, ?_⟩
    rintro t ⟨⟩
    simpa using hi.2.2
  obtain ⟨i0, hi0⟩ := List.exists_mem_of_ne_nil _ hsome
  have := C62_spatial_partial ops hv contains hc target ht hsize S hf g h4 hW hbs junk energy he ⟨i0, (hmem i0 hi0).2⟩ hrow
  have e : ((List.finRange n).filter fun i => contains[i.val]? == some true && (target.isNone || (Spec.labels ops)[i.val]? == target)).map (·.val) =
      spatialSites (Spec.labels ops) names contains o := by
    rw [hs, ← hsize, ← List.map_coe_finRange_eq_range, List.filter_map]
    rfl
  refine ⟨_, this, by rw [List.length_map, ← e, List.length_map], ?_⟩
  intro c i hci
  refine ⟨(hmem i (List.mem_of_getElem? hci)).2.1, (hmem i (List.mem_of_getElem? hci)).2.2, (hmem i (List.mem_of_getElem? hci)).1, ?_⟩
  rw [← e, List.getElem?_map, Option.map_eq_some_iff] at hci
  obtain ⟨j, hj, rfl⟩ := hci
  rw [List.getElem?_map, hj]
  rfl

/-- **C94** (map at an energy): the row of an energy which is nearest to the given one. -/
theorem C94_structure_map {F : Type} (l : SpatialLDOS F) (hlen : l.data.length = l.energy.length) (hne : l.energy ≠ []) (energy : ℝ) :
    ∃ (k : Nat) (e : ℝ) (row : List ℝ), l.structureMap energy = .ok row ∧ l.data[k]? = some row ∧ l.energy[k]? = some e ∧ ∀ e' ∈ l.energy, |e - energy| ≤ |e' - energy| := by
  obtain ⟨k, e, h1, h2, h3⟩ := SweepResult.nearest_spec l.energy energy hne
  have hk : k < l.data.length := by rw [hlen]; exact (List.getElem?_eq_some_iff.1 h2).1
  refine ⟨k, e, l.data[k], ?_, List.getElem?_eq_getElem hk, h2, h3⟩
  unfold SpatialLDOS.structureMap
  rw [h1, Res.bind_ok, List.getElem?_eq_getElem hk]

theorem column_ok (data : List (List ℝ)) (c : Nat) (h : ∀ row ∈ data, c < row.length) :
    ∃ v, (data.mapM fun row => match row[c]? with | some v => (.ok v : Res ℝ) | none => .err .outOfRange) = .ok v ∧ v.length = data.length ∧
      ∀ (k : Nat) row, data[k]? = some row → v[k]? = row[c]? := by
  refine ⟨data.map fun row => row.getD c 0, ?_, by simp, ?_⟩
  · refine mapM_ok _ _ _ fun row hrow => ?_
    rw [List.getElem?_eq_getElem (h row hrow)]
    simp [List.getD_eq_getElem?_getD, List.getElem?_eq_getElem (h row hrow)]
  · intro k row hk
    have := h row (List.mem_of_getElem? hk)
    rw [List.getElem?_map, hk]
    simp [List.getD_eq_getElem?_getD, List.getElem?_eq_getElem this]

/-- **C94** (series at a position): the values of a site of the structure which is nearest to the position, among those selected by the name. If the name selects
no site, those of the first site. -/
theorem C94_ldos_at {F : Type} [Field F] [LinearOrder F] (l : SpatialLDOS F) (hrows : ∀ row ∈ l.data, row.length = l.positions.length)
    (hne : l.positions ≠ []) (target : List F) (ht : 0 < target.length ∧ target.length ≤ 3) (o : Names.Name) (hlen : (l.ids.eq o).length = l.positions.length) :
    ∃ (c : Nat) (v : List ℝ), l.ldosAt target o = .ok v ∧ v.length = l.data.length ∧ (∀ (k : Nat) row, l.data[k]? = some row → v[k]? = row[c]?) ∧
      ∃ p, l.positions[c]? = some p ∧
        (o = [] → ∀ (j : Nat) q, l.positions[j]? = some q → Names.sqDist p target ≤ Names.sqDist q target) ∧
        (o ≠ [] → true ∈ l.ids.eq o → (l.ids.eq o)[c]? = some true ∧
          ∀ (j : Nat) q, l.positions[j]? = some q → (l.ids.eq o)[j]? = some true → Names.sqDist p target ≤ Names.sqDist q target) ∧
        (o ≠ [] → true ∉ l.ids.eq o → c = 0) := by
  have fin : ∀ (c : Nat) p, Names.sitesNearest l.positions l.ids target o = .ok c → l.positions[c]? = some p →
      ∃ (v : List ℝ), l.ldosAt target o = .ok v ∧ v.length = l.data.length ∧ (∀ (k : Nat) row, l.data[k]? = some row → v[k]? = row[c]?) := by
    intro c p hc hp
    obtain ⟨v, v1, v2, v3⟩ := column_ok l.data c fun row hrow => by
      rw [hrows row hrow]; exact (List.getElem?_eq_some_iff.1 hp).1
    refine ⟨v, ?_, v2, v3⟩
    unfold SpatialLDOS.ldosAt
    rw [hc, Res.bind_ok]
    exact v1
  by_cases ho : o = []
  · subst ho
    obtain ⟨c, p, h1, h2, h3⟩ := Names.C81_nearest_any l.positions l.ids target ht hne
    obtain ⟨v, v1, v2, v3⟩ := fin c p h1 h2
    exact ⟨c, v, v1, v2, v3, p, h2, fun _ j q hq => (h3 j q hq).1, fun h => absurd rfl h, fun h => absurd rfl h⟩
  · by_cases hm : true ∈ l.ids.eq o
    · obtain ⟨i, hi⟩ := List.mem_iff_getElem?.1 hm
      obtain ⟨c, p, h1, h2, h3, h4⟩ := Names.C81_nearest l.positions l.ids target ht o ho hlen i hi
      obtain ⟨v, v1, v2, v3⟩ := fin c p h1 h2
      exact ⟨c, v, v1, v2, v3, p, h2, fun h => absurd h ho, fun _ _ => ⟨h3, fun j q hq hj => (h4 j q hq hj).1⟩, fun _ h => absurd hm h⟩
    · have h1 := Names.C81_nearest_missing l.positions l.ids target ht o ho hlen hne hm
      obtain ⟨p, hp⟩ : ∃ p, l.positions[0]? = some p := ⟨_, List.getElem?_eq_getElem (List.length_pos_iff.2 hne)⟩
      obtain ⟨v, v1, v2, v3⟩ := fin 0 p h1 hp
      exact ⟨0, v, v1, v2, v3, p, hp, fun h => absurd h ho, fun _ h => absurd h hm, fun _ _ => rfl⟩

/-! ## Examples -/

/-- The hypotheses of `C94_moments` are met. -/
example : diagonalMoments 6 (unitVec 0) (rescale ⟨2, 0⟩ (matrixOf 2 imagPair)) = .ok (momentList ⟨2, 0⟩ (matrixOf 2 imagPair) (unitVec 0) 6) :=
  C94_moments imagPair_ready.2.2.1 _ (by norm_num) rfl

/-- The hypotheses of `C94_agree` are met. -/
example [DecidableEq ℂ] {row : Res (List ℝ)} := C94_agree (n := 2) [⟨0, 2, 1⟩] (by simp [Spec.Consistent]) (by decide) (by decide) (fun _ => (0 : Nat)) none (by simp) (by decide)
  (h := imagPair) (s := ⟨2, 0⟩) (cfg := ⟨false, false⟩) rfl
  (fun _ => ⟨imagPair_ready.1, imagPair_ready.2.1, imagPair_ready.2.2.1, imagPair_ready.2.2.2.1, by intro h; cases h⟩)
  (f := .csr fun _ => 0) trivial jackson (num := 6) rfl (W := 2) (bs := 1) (by norm_num) (by norm_num) (fun _ => 0) true 0 (by simp [Scale.apply]) (row := row)

/-- The two conditions of `C94_scale`: both are met by `(-1, 1)` and `(0, 1)`; `(-1, 1.0001)` violates them. -/
example : (scale (-1) 1 : Scale ℝ).b = 0 ∧ 1 / 10000 ≤ |(scale 0 1 : Scale ℝ).b / (scale 0 1 : Scale ℝ).a| ∧
    ¬ ((scale (-1) 1.0001 : Scale ℝ).b = 0 ∨ 1 / 10000 ≤ |(scale (-1) 1.0001 : Scale ℝ).b / (scale (-1) 1.0001 : Scale ℝ).a|) := by
  unfold scale
  norm_num [abs_of_pos]

/-- The hypotheses of `C94_sites` are met, and the result is not trivial. -/
example : lookup ["A".toList, "B".toList] "B".toList = .ok (some 1) ∧
    spatialSites [0, 1, 1, 1] ["A".toList, "B".toList] [true, true, false, true] "B".toList = [1, 3] := by decide +kernel

/-- One orbital: `calc_ldos(reduce=False).reduced()` fails. -/
example : squeezed 10 1 = [10] ∧ reducedShape (squeezed 10 1) = .err .outOfRange ∧ squeezed 1 3 = [3] := by decide +kernel

/-- The hypotheses of `C94_structure_map` and `C94_ldos_at` are met. -/
example : ∃ l : SpatialLDOS Rat, l.data.length = l.energy.length ∧ l.energy ≠ [] ∧ (∀ row ∈ l.data, row.length = l.positions.length) ∧ l.positions ≠ [] ∧
    (l.ids.eq "A".toList).length = l.positions.length ∧ true ∈ l.ids.eq "A".toList :=
  ⟨⟨[[1, 2], [3, 4]], [0, 1], [⟨0, 0, 0⟩, ⟨1, 0, 0⟩], ⟨[0, 1], [("A".toList, 0), ("B".toList, 1)]⟩⟩, by simp, by simp, by simp, by simp, by decide +kernel, by decide +kernel⟩

/-- The hypotheses of `C94_spatial` are met. -/
example [DecidableEq ℂ] {row : Res (List ℝ)} := C94_spatial (n := 2) [⟨0, 1, 1⟩, ⟨1, 1, 1⟩] (by decide) ["A".toList, "B".toList] (by decide) [true, true] rfl
  "B".toList (some 1) (by decide +kernel) (by decide) rfl imagPair_all (f := .csr fun _ => 5) trivial jackson (num := 10) (by norm_num) (W := 3) (bs := 4)
  (by norm_num) (by norm_num) (fun _ => 7) 1 (by unfold Scale.apply; norm_num) (row := row) (by decide +kernel)

end Verif.Kpm.Py
