import Verif.Kpm.Ldos
import Verif.Kpm.PropsGreens
import Verif.Sublat.Props

/-!
# Local density of states by position (C62)
-/

namespace Verif.Kpm

open Verif.Numeric Polynomial Finset
open Verif.Hopping (Csr)
open Verif.Sublat

variable {n : Nat}

/-- Specification: the KPM expansion, with kernel `g` and `num` moments, of the local density of states of `H` at row `i`. -/
noncomputable def densitySpec (s : Scale ℝ) (H : Matrix (Fin n) (Fin n) ℂ) (g : Nat → Nat → ℝ) (num : Nat) (energy : ℝ) (i : Fin n) : ℝ :=
  2 / Real.pi / s.a / Real.sqrt (1 - s.apply energy * s.apply energy) *
    ∑ k ∈ range num, g num k * ((if k = 0 then 1 / 2 else 1) * (chebOf s H k i i).re) * Real.cos (k * Real.arccos (s.apply energy))

/-- Every possible result of `Core::ldos` holds the densities of the targets, in the order of the targets. -/
theorem coreLdos_eq [DecidableEq ℂ] {s : Scale ℝ} {h : Csr ℂ} {cfg : AlgorithmConfig} {first : Fin n} (R : ComplexSetup s h cfg first)
    (rest : List (Fin n)) {f : Format ℂ n ℂ} (hf : f.Aligned) (g : Nat → Nat → ℝ) {num : Nat} (h4 : num % 4 = 2) {W bs : Nat}
    (hW : 0 < W) (hbs : 0 < bs) (junk : Nat → ℂ) (energy : ℝ) (he : -1 < s.apply energy ∧ s.apply energy < 1) {row : Res (List ℝ)}
    (hrow : CoreLdos f cfg g s h num W bs junk ((first :: rest).map (·.val)) energy row) :
    row = .ok ((first :: rest).map (densitySpec s (matrixOf n h) g num energy)) := by
  obtain ⟨o, M, eo, eM, hall⟩ := C51_ldos rest R.setup hf (by omega) h4 junk hW hbs
  unfold CoreLdos at hrow
  rw [if_neg (by simp)] at hrow
  simp only [eo, eM] at hrow
  obtain ⟨sched, hreach, hj, rfl⟩ := hrow
  obtain ⟨mem, em, ed⟩ := hall sched (by simpa using hreach) hj
  rw [em, Res.bind_ok, ed, List.mapM_map]
  refine mapM_ok _ _ _ fun i _ => ?_
  exact C51_ldos_value R.2.2.1 g num i energy he

/-- **C62** (a result exists).  For any targets some execution of `Core::ldos` ends, so C62_ldos and C62_spatial_partial are not empty. -/
theorem C62_possible [DecidableEq ℂ] (f : Format ℂ n ℂ) (cfg : AlgorithmConfig) (g : Nat → Nat → ℝ) (s : Scale ℝ) (h : Csr ℂ)
    (num W bs : Nat) (junk : Nat → ℂ) (energy : ℝ) :
    (∀ targets, ∃ row, CoreLdos f cfg g s h num W bs junk targets energy row) ∧
    (∀ {R : Type} [LinearOrder R] data numSites (dist : Nat → R) target reduce,
      ∃ row, CalcLdos f cfg g s h num W bs junk data numSites dist target reduce energy row) ∧
    (∀ multiorbital contains data numSites target,
      ∃ row, CalcSpatialLdos f cfg g s h num W bs junk multiorbital contains data numSites target energy row) := by
  have key : ∀ targets, ∃ row, CoreLdos f cfg g s h num W bs junk targets energy row := by
    intro targets
    unfold CoreLdos
    split
    · exact ⟨_, rfl⟩
    · split
      · exact ⟨_, rfl⟩
      · exact ⟨_, rfl⟩
      · split
        · exact ⟨_, rfl⟩
        · exact ⟨_, rfl⟩
        · rename_i o _ _ M _
          obtain ⟨sched, h1, h2⟩ := C30_can_finish (W := W) (bs := bs) (nv := targets.length) (ldosColumn (1 / 2) M cfg o num junk) concatenator
            (.ok ⟨0, 0, []⟩)
          exact ⟨_, sched, h1, h2, rfl⟩
  refine ⟨key, ?_, ?_⟩
  · intro R _ data numSites dist target reduce
    unfold CalcLdos
    split
    · exact ⟨_, rfl⟩
    · exact ⟨_, rfl⟩
    · rename_i targets _
      obtain ⟨r, hr⟩ := key targets
      exact ⟨_, r, hr, rfl⟩
  · intro multiorbital contains data numSites target
    unfold CalcSpatialLdos
    split
    · exact ⟨_, rfl⟩
    · exact ⟨_, rfl⟩
    · exact key _

/-- **C62** (which site).  The targets of `calc_ldos` are the rows of a site which is nearest to the position among the sites with the
requested label (the first of them): one row per orbital of this site, in the order of the orbitals. -/
theorem C62_targets {R : Type} [LinearOrder R] (ops : List Spec.AddOp) (hops : Spec.Consistent ops)
    (hv : verify (runAdds ops) (Spec.norbs ops).length = .ok ()) (dist : Nat → R) (target : Option Int)
    (ht : ∀ t ∈ target, t ∈ Spec.labels ops) (hne : Spec.norbs ops ≠ []) :
    ∃ i norb, (Spec.norbs ops)[i]? = some norb ∧ (∀ t ∈ target, (Spec.labels ops)[i]? = some t) ∧
      (∀ j, j < (Spec.norbs ops).length → (∀ t ∈ target, (Spec.labels ops)[j]? = some t) → dist i ≤ dist j ∧ (dist j = dist i → i ≤ j)) ∧
      ldosTargets (runAdds ops) (Spec.norbs ops).length dist target = .ok (List.range' (Spec.firstRow (Spec.norbs ops) i) norb) := by
  have hlab : decompressed (runAdds ops) = (Spec.labels ops).map some := (C01_labels_roundtrip ops).1
  have hlen : (Spec.labels ops).length = (Spec.norbs ops).length := by
    simp [Spec.labels, Spec.norbs, List.length_flatMap]
  have key : ∀ i, i < (Spec.norbs ops).length → ∃ norb, (Spec.norbs ops)[i]? = some norb ∧
      toHamiltonianIndices (runAdds ops) i = .ok (List.range' (Spec.firstRow (Spec.norbs ops) i) norb) := by
    intro i hi
    exact ⟨_, List.getElem?_eq_getElem hi, (C03_rows ops hops i).1 _ (List.getElem?_eq_getElem hi)⟩
  unfold ldosTargets
  cases target with
  | none =>
    obtain ⟨r, e, hr, hmin⟩ := C40_find_nearest_any (runAdds ops) _ (List.length_pos_iff.2 hne) dist
    obtain ⟨norb, hn, hrows⟩ := key r hr
    refine ⟨r, norb, hn, by simp, fun j hj _ => hmin j hj, ?_⟩
    rw [e, Res.bind_ok, hrows]
  | some t =>
    obtain ⟨r, e, hr, hmin⟩ := C40_find_nearest_sublattice_partial (runAdds ops) _ hv t
      (by rw [hlab]; exact List.mem_map.2 ⟨t, ht t rfl, rfl⟩) dist
    have hget : ∀ j : Nat, (decompressed (runAdds ops))[j]? = some (some t) ↔ (Spec.labels ops)[j]? = some t := by
      intro j
      rw [hlab, List.getElem?_map]
      cases (Spec.labels ops)[j]? <;> simp
    have hr' := (hget r).1 hr
    have hlt : r < (Spec.norbs ops).length := by
      rw [← hlen]; exact (List.getElem?_eq_some_iff.1 hr').1
    obtain ⟨norb, hn, hrows⟩ := key r hlt
    refine ⟨r, norb, hn, ?_, fun j _ hj => hmin j ((hget j).2 (hj t rfl)), ?_⟩
    · rintro t' ⟨⟩; exact hr'
    · rw [e, Res.bind_ok, hrows]

/-- **C62**.  Every possible result of `calc_ldos`, for every system, position, label, energy inside the bounds, kernel, storage format,
choice of algorithms, number of threads, batch size and schedule: the local densities of states at the orbitals of the nearest site with
the label, or their sum if `reduce` is set. -/
theorem C62_ldos [DecidableEq ℂ] {R : Type} [LinearOrder R] (ops : List Spec.AddOp) (hops : Spec.Consistent ops)
    (hv : verify (runAdds ops) (Spec.norbs ops).length = .ok ()) (hpos : ∀ k ∈ Spec.norbs ops, 0 < k) (dist : Nat → R) (target : Option Int)
    (ht : ∀ t ∈ target, t ∈ Spec.labels ops) (hne : Spec.norbs ops ≠ []) {s : Scale ℝ} {h : Csr ℂ} {cfg : AlgorithmConfig}
    (hsize : n = (Spec.norbs ops).sum) (S : ∀ first : Fin n, ComplexSetup s h cfg first) {f : Format ℂ n ℂ} (hf : f.Aligned)
    (g : Nat → Nat → ℝ) {num : Nat} (h4 : num % 4 = 2) {W bs : Nat} (hW : 0 < W) (hbs : 0 < bs) (junk : Nat → ℂ) (reduce : Bool)
    (energy : ℝ) (he : -1 < s.apply energy ∧ s.apply energy < 1) {row : Res (List ℝ)}
    (hrow : CalcLdos f cfg g s h num W bs junk (runAdds ops) (Spec.norbs ops).length dist target reduce energy row) :
    ∃ i norb, ∃ orbital : Fin norb → Fin n, (Spec.norbs ops)[i]? = some norb ∧ (∀ t ∈ target, (Spec.labels ops)[i]? = some t) ∧
      (∀ j, j < (Spec.norbs ops).length → (∀ t ∈ target, (Spec.labels ops)[j]? = some t) → dist i ≤ dist j ∧ (dist j = dist i → i ≤ j)) ∧
      (∀ k, (orbital k).val = Spec.firstRow (Spec.norbs ops) i + k.val) ∧
      row = .ok (if reduce = true ∧ norb ≠ 1 then [∑ k, densitySpec s (matrixOf n h) g num energy (orbital k)]
        else List.ofFn fun k => densitySpec s (matrixOf n h) g num energy (orbital k)) := by
  obtain ⟨i, norb, hi, hlab, hmin, et⟩ := C62_targets ops hops hv dist target ht hne
  have hnorb : 0 < norb := hpos norb (List.mem_of_getElem? hi)
  have hlast : Spec.firstRow (Spec.norbs ops) i + norb ≤ n := by
    obtain ⟨hlt, hget⟩ := List.getElem?_eq_some_iff.1 hi
    have h1 : ((Spec.norbs ops).take (i + 1)).sum ≤ (Spec.norbs ops).sum := (List.take_sublist _ _).sum_le_sum fun _ _ => Nat.zero_le _
    rw [List.take_succ_eq_append_getElem hlt, List.sum_append, hget] at h1
    simp only [List.sum_cons, List.sum_nil, Nat.add_zero] at h1
    unfold Spec.firstRow
    omega
  let orbital : Fin norb → Fin n := fun k => ⟨Spec.firstRow (Spec.norbs ops) i + k.val, by omega⟩
  refine ⟨i, norb, orbital, hi, hlab, hmin, fun k => rfl, ?_⟩
  have erows : List.range' (Spec.firstRow (Spec.norbs ops) i) norb = (List.ofFn orbital).map (·.val) := by
    refine List.ext_getElem (by simp) fun k h1 h2 => ?_
    simp [orbital]
  unfold CalcLdos at hrow
  simp only [et] at hrow
  obtain ⟨r, hr, rfl⟩ := hrow
  obtain ⟨m, rfl⟩ : ∃ m, norb = m + 1 := ⟨norb - 1, by omega⟩
  rw [erows, List.ofFn_succ] at hr
  rw [coreLdos_eq (S _) _ hf g h4 hW hbs junk energy he hr, Res.bind_ok]
  congr 1
  have e2 : (orbital 0 :: List.ofFn fun i => orbital i.succ).map (densitySpec s (matrixOf n h) g num energy) =
      List.ofFn fun k => densitySpec s (matrixOf n h) g num energy (orbital k) := by
    rw [← List.ofFn_succ, List.map_ofFn]; rfl
  rw [e2]
  unfold reduceRow
  rw [List.length_ofFn, List.sum_ofFn]
  by_cases hm : reduce = true ∧ 1 < m + 1
  · rw [if_pos hm, if_pos ⟨hm.1, by omega⟩]
  · rw [if_neg hm, if_neg fun hc => hm ⟨hc.1, by omega⟩]

/-! ## Spatial density -/

/-- **C62** (which sites).  The targets of `calc_spatial_ldos` are exactly the sites inside of the shape with the requested label, in the order
of the sites. -/
theorem C62_spatial_targets (ops : List Spec.AddOp) (hv : verify (runAdds ops) (Spec.labels ops).length = .ok ()) (contains : List Bool)
    (hc : contains.length = (Spec.labels ops).length) (target : Option Int) (ht : ∀ t ∈ target, t ∈ Spec.labels ops) :
    spatialTargets false contains (runAdds ops) (Spec.labels ops).length target = .ok ((List.range (Spec.labels ops).length).filter fun i =>
      contains[i]? == some true && (target.isNone || (Spec.labels ops)[i]? == target)) := by
  have hfold : ∀ (l : List Nat), (∀ i ∈ l, i < contains.length) → ∀ v : List Nat, l.foldlM (pushContained contains) v = Res.ok (v ++ l.filter fun i => contains[i]? == some true) := by
    intro l
    induction l with
    | nil => intro _ v; simp
    | cons a l ih =>
      intro hl v
      have ha := hl a List.mem_cons_self
      have e : rd contains a = .ok contains[a] := by unfold rd; rw [List.getElem?_eq_getElem ha]
      have e2 : pushContained contains v a = .ok (if contains[a] then v ++ [a] else v) := by
        unfold pushContained; rw [e, Res.bind_ok]; rfl
      rw [List.foldlM_cons, e2, Res.bind_ok, ih fun i hi => hl i (List.mem_cons_of_mem _ hi)]
      congr 1
      rw [List.filter_cons, List.getElem?_eq_getElem ha]
      cases contains[a] <;> simp
  obtain ⟨s, e, er, hse, hend, hin⟩ : ∃ s e, sublatticeRange (runAdds ops) (Spec.labels ops).length target = .ok (s, e) ∧ s ≤ e ∧
      e ≤ (Spec.labels ops).length ∧ ∀ p < (Spec.labels ops).length, (s ≤ p ∧ p < e) ↔ (target = none ∨ (Spec.labels ops)[p]? = target) := by
    cases target with
    | none => exact ⟨0, _, rfl, Nat.zero_le _, le_refl _, fun p hp => by simp [hp]⟩
    | some t =>
      obtain ⟨hn, hid, -⟩ := (verify_iff (runAdds ops) _).1 hv
      have hlabels : tableLabels (runAdds ops) = Spec.labels ops := by
        have := (C01_labels_roundtrip ops).1
        rw [decompressed_eq] at this
        exact List.map_injective_iff.2 (Option.some_injective _) this
      have ht' : t ∈ tableLabels (runAdds ops) := by rw [hlabels]; exact ht t rfl
      rcases hf : (iters (runAdds ops)).find? (fun sub => sub.elem.id == t) with _ | sub
      · exact absurd (mem_ids_of_mem_labels (runAdds ops) t ht') ((find_block_none (runAdds ops) 0 0 t).1 hf)
      · have hb : ∀ p : Nat, (tableLabels (runAdds ops))[p]? = some t ↔ sub.sysStart ≤ p ∧ p < sub.sysEnd := by
          intro p
          simpa using find_block (runAdds ops) 0 0 t hid sub hf p (Nat.zero_le _)
        obtain ⟨p, hp⟩ := List.getElem?_of_mem ht'
        have hp' := (hb p).1 hp
        have hend := iters_sysEnd_le (runAdds ops) 0 0 sub (List.mem_of_find?_eq_some hf)
        rw [← decompressedSize_eq, hn, Nat.zero_add] at hend
        refine ⟨sub.sysStart, sub.sysEnd, ?_, by omega, hend, fun p _ => ?_⟩
        · simp only [sublatticeRange, hf]
        · rw [← hb, hlabels]; simp
  unfold spatialTargets
  simp only [Bool.false_eq_true, if_false]
  rw [er, Res.bind_ok]
  have hr : (List.range e).drop s = List.range' s (e - s) := by
    rw [List.range_eq_range', List.drop_range']
    simp
  simp only [hr]
  rw [hfold _ (by intro i hi; have := List.mem_range'_1.1 hi; omega), List.nil_append]
  congr 1
  have hsplit : List.range (Spec.labels ops).length = List.range s ++ (List.range' s (e - s) ++ List.range' e ((Spec.labels ops).length - e)) := by
    have h1 := List.range'_append_1 (s := s) (m := e - s) (n := (Spec.labels ops).length - e)
    rw [show s + (e - s) = e by omega] at h1
    have h2 := List.range'_append_1 (s := 0) (m := s) (n := e - s + ((Spec.labels ops).length - e))
    rw [Nat.zero_add] at h2
    rw [List.range_eq_range', List.range_eq_range', h1, h2]
    congr 1
    omega
  have hiff : ∀ i, i < (Spec.labels ops).length → ((target.isNone || (Spec.labels ops)[i]? == target) = true ↔ s ≤ i ∧ i < e) := by
    intro i hi
    rw [hin i hi]
    simp
  rw [hsplit, List.filter_append, List.filter_append]
  have hl : (List.range s).filter (fun i => contains[i]? == some true && (target.isNone || (Spec.labels ops)[i]? == target)) = [] := by
    refine List.filter_eq_nil_iff.2 fun i hi => ?_
    have := List.mem_range.1 hi
    rw [Bool.and_eq_true, hiff i (by omega)]
    omega
  have hu : (List.range' e ((Spec.labels ops).length - e)).filter
      (fun i => contains[i]? == some true && (target.isNone || (Spec.labels ops)[i]? == target)) = [] := by
    refine List.filter_eq_nil_iff.2 fun i hi => ?_
    have := List.mem_range'_1.1 hi
    rw [Bool.and_eq_true, hiff i (by omega)]
    omega
  rw [hl, hu, List.nil_append, List.append_nil]
  refine List.filter_congr fun i hi => ?_
  have := List.mem_range'_1.1 hi
  rw [(hiff i (by omega)).2 (by omega), Bool.and_true]

/-- **C62** (spatial).  For a model with one orbital per site, every possible result of `calc_spatial_ldos` holds the local densities of states of exactly
the sites inside of the shape with the requested label, in the order of the sites. -/
theorem C62_spatial_partial [DecidableEq ℂ] (ops : List Spec.AddOp) (hv : verify (runAdds ops) (Spec.labels ops).length = .ok ())
    (contains : List Bool) (hc : contains.length = (Spec.labels ops).length) (target : Option Int) (ht : ∀ t ∈ target, t ∈ Spec.labels ops)
    {s : Scale ℝ} {h : Csr ℂ} {cfg : AlgorithmConfig} (hsize : n = (Spec.labels ops).length)
    (S : ∀ first : Fin n, ComplexSetup s h cfg first) {f : Format ℂ n ℂ} (hf : f.Aligned)
    (g : Nat → Nat → ℝ) {num : Nat} (h4 : num % 4 = 2) {W bs : Nat} (hW : 0 < W) (hbs : 0 < bs) (junk : Nat → ℂ)
    (energy : ℝ) (he : -1 < s.apply energy ∧ s.apply energy < 1) {row : Res (List ℝ)}
    (hsome : ∃ i : Nat, contains[i]? = some true ∧ ∀ t ∈ target, (Spec.labels ops)[i]? = some t)
    (hrow : CalcSpatialLdos f cfg g s h num W bs junk false contains (runAdds ops) (Spec.labels ops).length target energy row) :
    row = .ok (((List.finRange n).filter fun i => contains[i.val]? == some true && (target.isNone || (Spec.labels ops)[i.val]? == target)).map
      (densitySpec s (matrixOf n h) g num energy)) := by
  subst hsize
  unfold CalcSpatialLdos at hrow
  simp only [C62_spatial_targets ops hv contains hc target ht] at hrow
  have e : (List.range (Spec.labels ops).length).filter (fun i => contains[i]? == some true && (target.isNone || (Spec.labels ops)[i]? == target)) =
      ((List.finRange (Spec.labels ops).length).filter fun i =>
        contains[i.val]? == some true && (target.isNone || (Spec.labels ops)[i.val]? == target)).map (·.val) := by
    rw [← List.map_coe_finRange_eq_range, List.filter_map]
    rfl
  rw [e] at hrow
  obtain ⟨i, hi, hit⟩ := hsome
  rcases hl : (List.finRange (Spec.labels ops).length).filter fun i =>
      contains[i.val]? == some true && (target.isNone || (Spec.labels ops)[i.val]? == target) with _ | ⟨first, rest⟩
  · exfalso
    have hlt : i < (Spec.labels ops).length := by rw [← hc]; exact (List.getElem?_eq_some_iff.1 hi).1
    have := List.filter_eq_nil_iff.1 hl ⟨i, hlt⟩ (List.mem_finRange _)
    refine this ?_
    simp only [hi, beq_self_eq_true, Bool.true_and]
    cases target with
    | none => rfl
    | some t => simp [hit t rfl]
  · rw [hl] at hrow ⊢
    exact coreLdos_eq (S first) rest hf g h4 hW hbs junk energy he hrow

/-- **C62** (rejected).  Models with several orbitals per site are rejected by `calc_spatial_ldos`, and labels of no sublattice of the system by both. -/
theorem C62_rejected {R : Type} [LinearOrder R] (contains : List Bool) (data : Table) (numSites : Nat) (dist : Nat → R) (t : Int)
    (ht : t ∉ aliasIds data) (target : Option Int) :
    spatialTargets true contains data numSites target = .err .runtimeError ∧
    spatialTargets false contains data numSites (some t) = .err .runtimeError ∧
    ldosTargets data numSites dist (some t) = .err .runtimeError := by
  refine ⟨rfl, ?_, ?_⟩
  · have := (find_block_none data 0 0 t).2 ht
    unfold spatialTargets
    simp only [sublatticeRange, iters, this]
    rfl
  · unfold ldosTargets
    rw [C40_unknown_label data numSites t ht dist]
    rfl

/-- **C62** (finding).  A shape without any site is not rejected: the result is undefined. -/
theorem C62_empty_shape [DecidableEq ℂ] (ops : List Spec.AddOp) (hv : verify (runAdds ops) (Spec.labels ops).length = .ok ())
    {s : Scale ℝ} {h : Csr ℂ} {cfg : AlgorithmConfig} (f : Format ℂ n ℂ) (g : Nat → Nat → ℝ) (num W bs : Nat) (junk : Nat → ℂ) (energy : ℝ)
    (row : Res (List ℝ)) (hrow : CalcSpatialLdos f cfg g s h num W bs junk false (List.replicate (Spec.labels ops).length false) (runAdds ops)
      (Spec.labels ops).length none energy row) : row = .ub := by
  unfold CalcSpatialLdos at hrow
  rw [C62_spatial_targets ops hv _ (by simp) none (by simp)] at hrow
  have e : (List.range (Spec.labels ops).length).filter (fun i => (List.replicate (Spec.labels ops).length false)[i]? == some true &&
      ((none : Option Int).isNone || (Spec.labels ops)[i]? == none)) = [] := by
    refine List.filter_eq_nil_iff.2 fun i hi => ?_
    have := List.mem_range.1 hi
    simp [this]
  simp only [e] at hrow
  unfold CoreLdos at hrow
  rwa [if_pos rfl] at hrow

/-! ## A concrete system -/

/-- A site with one orbital of sublattice 0 and a site of sublattice 1: the pair with imaginary hopping. -/
theorem imagPair_all (first : Fin 2) : ComplexSetup ⟨2, 0⟩ imagPair ⟨true, true⟩ first := by
  obtain ⟨h1, h2, h3, h4, h5⟩ := imagPair_ready
  refine ⟨h1, h2, h3, h4, fun hr i => ?_⟩
  have h01 := h5 hr 1
  have h10 : Reach imagPair (1 : Fin 2) 0 := .single ⟨-Complex.I, by simp [imagPair]⟩
  fin_cases first
  · exact h5 hr i
  · fin_cases i
    · exact h10
    · exact .refl

example [DecidableEq ℂ] {row : Res (List ℝ)} := C62_ldos (n := 2) (R := ℚ) [⟨0, 1, 1⟩, ⟨1, 1, 1⟩] (by unfold Spec.Consistent; decide) (by decide) (by decide) (fun i => 3 - i)
  (some 1) (by decide) (by decide) rfl imagPair_all (f := .csr fun _ => 5) trivial jackson (num := 10) (by norm_num) (W := 3) (bs := 4)
  (by norm_num) (by norm_num) (fun _ => 7) true 1 (by unfold Scale.apply; norm_num) (row := row)

example [DecidableEq ℂ] {row : Res (List ℝ)} := C62_spatial_partial (n := 2) [⟨0, 1, 1⟩, ⟨1, 1, 1⟩] (by decide) [true, true] rfl
  (some 1) (by decide) rfl imagPair_all (f := .csr fun _ => 5) trivial jackson (num := 10) (by norm_num) (W := 3) (bs := 4)
  (by norm_num) (by norm_num) (fun _ => 7) 1 (by unfold Scale.apply; norm_num) (row := row) ⟨1, rfl, by simp [Spec.labels]⟩

example := C62_targets (R := ℚ) [⟨0, 1, 1⟩, ⟨1, 2, 3⟩] (by unfold Spec.Consistent; decide) (by decide) (fun i => |3 - (i : ℚ)|) (some 1) (by decide) (by decide)

example : verify (runAdds [⟨0, 1, 2⟩]) (Spec.labels [⟨0, 1, 2⟩]).length = .ok () ∧ (7 : Int) ∉ aliasIds (runAdds [⟨0, 1, 2⟩]) := by decide

end Verif.Kpm
