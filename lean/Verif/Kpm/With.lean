import Verif.Kpm.Moments
import Verif.Numeric.Ell

/-!
# `SelectAlgorithm::with`: every algorithm, every matrix format
-/

namespace Verif.Kpm

open Verif.Numeric

variable {K V α : Type} {n : Nat}

theorem eigenDot_eq [CommRing V] [StarRing V] (a b : Fin n → V) : eigenDot a b = inner a b := by
  unfold eigenDot inner
  rw [← List.ofFn_eq_map, List.sum_ofFn]

/-! ## The formats implement the matrix they store -/

section formats

variable [CommRing K] [CommRing V] [StarRing V] [Module K V] {half : K}

theorem csrMat_implements {m : Raw K} (h : m.WF) (hr : m.rows = n) (hc : m.cols = n) (junk : Fin n → V) :
    Implements half (csrMat half junk m) (m.toMatrix n) := by
  refine ⟨fun a b x y _ h2 => kpmSpmvCsr_eq h hr hc a b h2 x y, fun a b x y m2 m3 h1 h2 => ?_, fun r0 => ?_⟩
  · exact diagAfter_eq _ _ a b h1 h2 x y m2 m3 (kpmSpmvCsr_eq h hr hc a b h2 x y)
  · exact makeR1Csr_eq h hr hc half junk r0

theorem ellMat_implements {m : Ell K} (h : m.WF n) : Implements half (ellMat (V := V) half m) (m.toMatrix n) := by
  refine ⟨fun a b x y _ h2 => kpmSpmvEll_eq h a b h2 x y, fun a b x y m2 m3 h1 h2 => ?_, fun r0 => ?_⟩
  · exact diagAfter_eq _ _ a b h1 h2 x y m2 m3 (kpmSpmvEll_eq h a b h2 x y)
  · exact makeR1Ell_eq h half r0

theorem ellSimdMat_implements {m : Ell K} (h : m.WF n) (hnz : m.nnzPerRow ≠ 0) {step : Nat} (hstep : 0 < step)
    (aligned : Nat → Nat → (Fin n → V) → (Fin n → V) → Nat → Bool) :
    Implements half (ellSimdMat half aligned step m) (m.toMatrix n) := by
  refine ⟨fun a b x y h1 h2 => kpmSpmvSimd_eq h hnz _ step hstep a b h1 h2 x y, fun a b x y m2 m3 h1 h2 => ?_, fun r0 => ?_⟩
  · exact kpmDiagSimd_eq h hnz _ step hstep a b h1 h2 x y m2 m3
  · exact makeR1Ell_eq h half r0

theorem ellSimdBatchMat_implements {m : Ell K} (h : m.WF n) (hnz : m.nnzPerRow ≠ 0) :
    Implements half (ellSimdBatchMat (V := V) half m) (m.toMatrix n) := by
  refine ⟨fun a b x y _ h2 => kpmSpmvSimdBatch_eq h hnz a b h2 x y, fun a b x y m2 m3 h1 h2 => ?_, fun r0 => ?_⟩
  · exact kpmDiagSimdBatch_eq h hnz a b h1 h2 x y m2 m3
  · exact makeR1Ell_eq h half r0

/-- What a format asks of the matrix: a positive alignment step, and for the SIMD kernels also a
nonempty register and a matrix with at least one stored element (see `C29_simd_empty`). -/
def Format.Valid (f : Format K n V) (m : Raw K) : Prop :=
  match f with
  | .csr _ => True
  | .ell ds is _ _ => 0 < ds ∧ 0 < is ∧ 0 < n
  | .ellSimd ds is _ _ _ step => 0 < ds ∧ 0 < is ∧ 0 < step ∧ ∃ i < n, m.row i ≠ []
  | .ellSimdBatch ds is _ _ => 0 < ds ∧ 0 < is ∧ ∃ i < n, m.row i ≠ []

/-- Every format gives kernels that implement the matrix. -/
theorem Format.implements (f : Format K n V) {m : Raw K} (h : m.WF) (hr : m.rows = n) (hc : m.cols = n)
    (hv : f.Valid m) : ∃ M, f.mat half m = .ok M ∧ Implements half M (m.toMatrix n) := by
  have nz : ∀ (e : Ell K), maxNnzPerRow m = .ok e.nnzPerRow → (∃ i < n, m.row i ≠ []) → e.nnzPerRow ≠ 0 := by
    intro e h4 ⟨i0, hi0, hrow⟩
    obtain ⟨N, e1, hN, _⟩ := maxNnzPerRow_spec h
    have e' : N = e.nnzPerRow := Res.ok.inj (e1.symm.trans h4)
    have := hN i0 (by omega)
    have := List.length_pos_iff.2 hrow
    omega
  cases f with
  | csr junk => exact ⟨_, rfl, csrMat_implements h hr hc junk⟩
  | ell ds is d0 i0 =>
    obtain ⟨v1, v2, v3⟩ := hv
    obtain ⟨e, h1, h2, h3, h4⟩ := csrToEll_spec h hr hc v3 ds is v1 v2 d0 i0
    refine ⟨ellMat half e, ?_, ?_⟩
    · unfold Format.mat; simp only [h1, Res.bind_ok]; rfl
    · rw [← h3]; exact ellMat_implements h2
  | ellSimd ds is d0 i0 aligned step =>
    obtain ⟨v1, v2, v3, v4⟩ := hv
    obtain ⟨e, h1, h2, h3, h4⟩ := csrToEll_spec h hr hc (by obtain ⟨i, hi, _⟩ := v4; omega) ds is v1 v2 d0 i0
    refine ⟨ellSimdMat half aligned step e, ?_, ?_⟩
    · unfold Format.mat; simp only [h1, Res.bind_ok]; rfl
    · rw [← h3]; exact ellSimdMat_implements h2 (nz e h4 v4) v3 aligned
  | ellSimdBatch ds is d0 i0 =>
    obtain ⟨v1, v2, v4⟩ := hv
    obtain ⟨e, h1, h2, h3, h4⟩ := csrToEll_spec h hr hc (by obtain ⟨i, hi, _⟩ := v4; omega) ds is v1 v2 d0 i0
    refine ⟨ellSimdBatchMat half e, ?_, ?_⟩
    · unfold Format.mat; simp only [h1, Res.bind_ok]; rfl
    · rw [← h3]; exact ellSimdBatchMat_implements h2 (nz e h4 v4)

end formats

/-! ## All algorithms -/

/-- The requirements of the two options on the matrix, on the starting vector and on the map that is
evaluated: the slices must fit the matrix if any option is on; the size optimisation needs the starting
vector inside the source slices and a map that only looks at the destination slices. -/
structure Ready [Zero K] [Zero V] (cfg : AlgorithmConfig) (map : SliceMap) (A : Matrix (Fin n) (Fin n) K)
    (r0 : Fin n → V) (l : (Fin n → V) → α) : Prop where
  slices : cfg.optimalSize = true ∨ cfg.interleaved = true → Slices map.data A
  start : cfg.optimalSize = true → ZeroAbove map.data map.src r0
  depends : cfg.optimalSize = true → DependsBelow map.data map.dest l

section off

variable [CommRing K] [CommRing V] [StarRing V] [Module K V] [SMul K α]

theorem offBasic_all {half : K} (hhalf : half * 2 = 1) {M : Mat n V} {H A : Matrix (Fin n) (Fin n) K}
    (hM : Implements half M A) (hA : A = (2 : K) • H) {map : SliceMap} {opt : Bool} {r : Fin n → V} {num : Nat}
    {val : (Fin n → V) → Res α} {l : (Fin n → V) → α} (hval : ∀ x, val x = .ok (l x))
    (hS : opt = true → Slices map.data A) (hr : opt = true → ZeroAbove map.data map.src r)
    (hl : opt = true → DependsBelow map.data map.dest l)
    {ms : List α} (hms : Done num 2 (offMoment half H l r) ms)
    {r1 : Fin n → V} (hr1 : r1 = chebVec H r 1) (h2 : 2 ≤ num) :
    offBasic M map opt val ms r r1 = .ok ((List.range num).map (offMoment half H l r)) := by
  cases opt with
  | false =>
    refine offBasic_eq hM hA (plan_full A _ num) (fun k _ => rfl) hval ?_ hms hr1 h2
    intro k x y _ h
    have : x = y := funext fun i => h i i.isLt
    rw [this]
  | true =>
    have S := hS rfl
    refine offBasic_eq hM hA (plan_opt hA half hhalf S (hr rfl) num)
      (fun k hk => sizeFor_eq (fun _ => S.nonempty) S.last hk) hval ?_ hms hr1 h2
    intro k x y hk h
    refine hl rfl x y fun i hi => h i (Nat.lt_of_lt_of_le hi (border_mono S.mono (by omega)))

theorem withOff_eq {half : K} (hhalf : half * 2 = 1) {M : Mat n V} {H A : Matrix (Fin n) (Fin n) K}
    (hM : Implements half M A) (hA : A = (2 : K) • H) {map : SliceMap} {cfg : AlgorithmConfig} {r : Fin n → V}
    {val : (Fin n → V) → Res α} {l : (Fin n → V) → α} (hval : ∀ x, val x = .ok (l x))
    (hR : Ready cfg map A r l) {moments : List α} (h2 : 2 ≤ moments.length)
    (heven : cfg.interleaved = true → moments.length % 2 = 0) :
    withOff half M map cfg val moments r = .ok ((List.range moments.length).map (offMoment half H l r)) := by
  have hr1 : half • act A r = chebVec H r 1 := by
    rw [chebVec_one, hA, act_smul, smul_smul, hhalf, one_smul]
  unfold withOff
  rw [hM.r1, Res.bind_ok]
  unfold offInitial
  rw [hval, Res.bind_ok]
  have d0 : Done moments.length 0 (offMoment half H l r) moments := ⟨rfl, fun j hj => absurd hj (Nat.not_lt_zero _)⟩
  obtain ⟨l1, e1, d1⟩ := d0.set (by omega) (v := half • l r) (by
    unfold offMoment; rw [if_pos rfl, chebVec_zero])
  obtain ⟨l2, e2, d2⟩ := d1.set (by omega) (v := l (half • act A r)) (by
    rw [offMoment_pos (by omega), hr1])
  rw [e1, Res.bind_ok, hval, Res.bind_ok, e2, Res.bind_ok]
  have hb := offBasic_all hhalf hM hA hval (fun h => hR.slices (Or.inl h)) hR.start hR.depends d2 hr1 h2
  split
  · rename_i hi
    rw [offInterleaved_eq hM (hR.slices (Or.inr hi)) _ _ _ (by rw [d2.1]; exact heven hi), hb]
  · exact hb

end off

section diag

variable [CommRing K] [StarRing K] [CommRing V] [StarRing V] [Algebra K V] [StarModule K V]

theorem diagBasic_all {half : K} (hhalf : half * 2 = 1) {M : Mat n V} {H A : Matrix (Fin n) (Fin n) K}
    (hM : Implements half M A) (hA : A = (2 : K) • H) (hH : H.IsHermitian) {map : SliceMap} {opt : Bool}
    {r : Fin n → V} {num : Nat}
    (hS : opt = true → Slices map.data A) (hr : opt = true → ZeroAbove map.data map.src r)
    (hsd : opt = true → map.src ≤ map.dest)
    {col : DiagCol V} (hms : Done num 2 (diagMoment half H r) col.moments)
    (hm0 : col.m0 = half • inner r r) (hm1 : col.m1 = inner (chebVec H r 1) r)
    {r1 : Fin n → V} (hr1 : r1 = chebVec H r 1) (h2 : 2 ≤ num) (heven : num % 2 = 0) :
    ∃ col', diagBasic M map opt col r r1 = .ok col' ∧ col'.moments = (List.range num).map (diagMoment half H r) := by
  cases opt with
  | false =>
    refine diagBasic_eq hhalf hM hA hH (plan_full A _ num) (fun k _ => rfl) (fun _ _ _ => le_refl _) ?_ hms hm0 hm1 hr1 h2 heven
    intro k _ _ i hi
    exact absurd i.isLt (by omega)
  | true =>
    have S := hS rfl
    refine diagBasic_eq hhalf hM hA hH (plan_opt hA half hhalf S (hr rfl) num)
      (fun k hk => sizeFor_eq (fun _ => S.nonempty) S.last hk) ?_ ?_ hms hm0 hm1 hr1 h2 heven
    · intro k _ hk
      refine border_mono S.mono ?_
      have u := index_upper (m := map) (k := k) (num := num)
      have r := index_range (m := map) S.nonempty (show k < num by omega)
      simp only [ilMax, if_true]
      omega
    · intro k hk2 hk i hi
      refine chebVec_zeroAbove hA half hhalf S (hr rfl) (k - 1) i ?_
      simp only [rowsFor, ilMax, if_true] at hi
      refine Nat.le_trans ?_ hi
      have l := index_lower (m := map) (k := k) (num := num)
      have r := index_range (m := map) S.nonempty (show k < num by omega)
      have hsd' := hsd rfl
      by_cases hb : map.data.length - 1 ≤ (map.index k num).toNat
      · rw [border_sat _ hb, S.last]; exact S.le _
      · refine border_mono S.mono ?_
        unfold SliceMap.lastIndex at l
        omega

theorem withDiag_eq {half : K} (hhalf : half * 2 = 1) {M : Mat n V} {H A : Matrix (Fin n) (Fin n) K}
    (hM : Implements half M A) (hA : A = (2 : K) • H) (hH : H.IsHermitian) {map : SliceMap} {cfg : AlgorithmConfig}
    {r : Fin n → V} (hS : cfg.optimalSize = true ∨ cfg.interleaved = true → Slices map.data A)
    (hr : cfg.optimalSize = true → ZeroAbove map.data map.src r ∧ map.src ≤ map.dest)
    {moments : List V} (h2 : 2 ≤ moments.length) (heven : moments.length % 2 = 0)
    (h4 : cfg.interleaved = true → moments.length % 4 = 2) :
    withDiag half M map cfg moments r = .ok ((List.range moments.length).map (diagMoment half H r)) := by
  have hr1 : half • act A r = chebVec H r 1 := by
    rw [chebVec_one, hA, act_smul, smul_smul, hhalf, one_smul]
  unfold withDiag
  rw [hM.r1, Res.bind_ok]
  unfold DiagCol.initial
  simp only [eigenDot_eq]
  have d0 : Done moments.length 0 (diagMoment half H r) moments := ⟨rfl, fun j hj => absurd hj (Nat.not_lt_zero _)⟩
  obtain ⟨l1, e1, d1⟩ := d0.set (by omega) (v := half • inner r r) (by
    unfold diagMoment; rw [if_pos rfl, chebVec_zero])
  obtain ⟨l2, e2, d2⟩ := d1.set (by omega) (v := inner (half • act A r) r) (by
    rw [diagMoment_pos (by omega), hr1, chebVec_one, inner_act H hH])
  rw [e1, Res.bind_ok, e2, Res.bind_ok]
  simp only [Res.pure_eq, Res.bind_ok]
  obtain ⟨col', hb, hm⟩ := diagBasic_all hhalf hM hA hH (fun h => hS (Or.inl h)) (fun h => (hr h).1) (fun h => (hr h).2)
    (col := ⟨l2, half • inner r r, inner (half • act A r) r⟩) d2 rfl (by rw [hr1]) hr1 h2 heven
  split
  · rename_i hi
    rw [diagInterleaved_eq hM (hS (Or.inr hi)) _ _ (by exact d2.1 ▸ h4 hi), hb, Res.bind_ok, hm]
  · rw [hb, Res.bind_ok, hm]

end diag

end Verif.Kpm
