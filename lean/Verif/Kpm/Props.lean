import Verif.Kpm.With
import Mathlib.Tactic.FinCases
import Mathlib.Tactic.NormNum

/-!
# Properties of the KPM moment algorithms (C26, C27, C28)

`m` is the optimized matrix, twice the scaled Hamiltonian `H`.  `f` ranges over all storage formats and
instruction sets, and over everything they leave to chance.
-/

namespace Verif.Kpm

open Verif.Numeric

variable {K V α : Type} {n : Nat}

/-! ## C26: the moments are Chebyshev expectation values -/

/-- **C26** (off-diagonal).  The basic algorithm stores `½ l(r)`, `l(T_1(H) r)`, `l(T_2(H) r)`, ... for every
starting vector `r`, every map `l` that the collector evaluates and every number of moments (at least 2, the
smallest that the API produces), whatever the memory contained before. -/
theorem C26_offdiagonal [CommRing K] [CommRing V] [StarRing V] [Module K V] [SMul K α]
    {half : K} (hhalf : half * 2 = 1) (f : Format K n V) {m : Raw K} (h : m.WF) (hr : m.rows = n) (hc : m.cols = n)
    (hv : f.Valid m) {H : Matrix (Fin n) (Fin n) K} (hH : m.toMatrix n = (2 : K) • H) (map : SliceMap) (r : Fin n → V)
    (val : (Fin n → V) → Res α) (l : (Fin n → V) → α) (hval : ∀ x, val x = .ok (l x))
    (moments : List α) (h2 : 2 ≤ moments.length) :
    ∃ M, f.mat half m = .ok M ∧
      withOff half M map ⟨false, false⟩ val moments r =
        .ok ((List.range moments.length).map (offMoment half H l r)) := by
  obtain ⟨M, e, hM⟩ := f.implements (half := half) h hr hc hv
  refine ⟨M, e, withOff_eq hhalf hM hH hval ⟨?_, ?_, ?_⟩ h2 ?_⟩ <;> simp

/-- **C26** (diagonal).  The doubling formulas give `½ <r|r>`, `<r|T_1(H)|r>`, `<r|T_2(H)|r>`, ... for every
Hermitian `H`, starting vector and even number of moments. -/
theorem C26_diagonal [CommRing K] [StarRing K] [CommRing V] [StarRing V] [Algebra K V] [StarModule K V]
    {half : K} (hhalf : half * 2 = 1) (f : Format K n V) {m : Raw K} (h : m.WF) (hr : m.rows = n) (hc : m.cols = n)
    (hv : f.Valid m) {H : Matrix (Fin n) (Fin n) K} (hH : m.toMatrix n = (2 : K) • H) (hherm : H.IsHermitian)
    (map : SliceMap) (r : Fin n → V) (moments : List V) (h2 : 2 ≤ moments.length) (heven : moments.length % 2 = 0) :
    ∃ M, f.mat half m = .ok M ∧
      withDiag half M map ⟨false, false⟩ moments r =
        .ok ((List.range moments.length).map (diagMoment half H r)) := by
  obtain ⟨M, e, hM⟩ := f.implements (half := half) h hr hc hv
  refine ⟨M, e, withDiag_eq hhalf hM hH hherm ?_ ?_ h2 heven ?_⟩ <;> simp

/-- **C26** (batches).  Computing a block of `c` vectors together gives, in column `j`, the moments of column
`j` alone. -/
theorem C26_batch [CommRing K] [StarRing K] {c : Nat} {half : K} (H : Matrix (Fin n) (Fin n) K)
    (r : Fin n → Fin c → K) (k : Nat) (j : Fin c) :
    diagMoment half H r k j = diagMoment half H (fun i => r i j) k := by
  have hc : ∀ i, chebVec H r k i j = chebVec H (fun i => r i j) k i := by
    intro i
    simp [chebVec, act, Finset.sum_apply]
  have hc0 : ∀ i, chebVec H r 0 i j = chebVec H (fun i => r i j) 0 i := by
    intro i
    simp [chebVec, act, Finset.sum_apply]
  unfold diagMoment
  split
  · simp only [Pi.smul_apply, inner, Finset.sum_apply, Pi.mul_apply, Pi.star_apply, hc0]
  · simp only [inner, Finset.sum_apply, Pi.mul_apply, Pi.star_apply, hc]

/-- **C26** (agreement).  For Hermitian `H` the diagonal algorithm returns the numbers that the off-diagonal
algorithm returns for the same left and right vector. -/
theorem C26_agreement [CommRing K] [StarRing K] [CommRing V] [StarRing V] [Algebra K V] [StarModule K V]
    {half : K} (hhalf : half * 2 = 1) (f : Format K n V) {m : Raw K} (h : m.WF) (hr : m.rows = n) (hc : m.cols = n)
    (hv : f.Valid m) {H : Matrix (Fin n) (Fin n) K} (hH : m.toMatrix n = (2 : K) • H) (hherm : H.IsHermitian)
    (map : SliceMap) (r : Fin n → V) (moments : List V) (h2 : 2 ≤ moments.length) (heven : moments.length % 2 = 0) :
    ∃ M, f.mat half m = .ok M ∧
      withDiag half M map ⟨false, false⟩ moments r
        = withOff half M map ⟨false, false⟩ (fun x => .ok (eigenDot r x)) moments r := by
  obtain ⟨M, e, hM⟩ := f.implements (half := half) h hr hc hv
  refine ⟨M, e, ?_⟩
  rw [withDiag_eq hhalf hM hH hherm (by simp) (by simp) h2 heven (by simp),
    withOff_eq hhalf hM hH (l := fun x => eigenDot r x) (fun _ => rfl) ⟨by simp, by simp, by simp⟩ h2 (by simp)]
  have : (diagMoment half H r : Nat → V) = offMoment half H (fun x => eigenDot r x) r := by
    funext k
    simp only [diagMoment, offMoment, eigenDot_eq]
  rw [this]

/-! ## C27: the size optimisation -/

/-- **C27** (off-diagonal).  Let the slices fit the matrix, let the starting vector live in the source slices
and let the collected value depend on the destination slices only.  Then restricting every product to the
size chosen by the slice map changes no moment, for every number of moments, with or without interleaving. -/
theorem C27_offdiagonal [CommRing K] [CommRing V] [StarRing V] [Module K V] [SMul K α]
    {half : K} (hhalf : half * 2 = 1) (f : Format K n V) {m : Raw K} (h : m.WF) (hr : m.rows = n) (hc : m.cols = n)
    (hv : f.Valid m) (map : SliceMap) (hS : Slices map.data (m.toMatrix n)) (r : Fin n → V)
    (hsrc : ZeroAbove map.data map.src r)
    (val : (Fin n → V) → Res α) (l : (Fin n → V) → α) (hval : ∀ x, val x = .ok (l x))
    (hdest : DependsBelow map.data map.dest l)
    (moments : List α) (h2 : 2 ≤ moments.length) (inter : Bool) (heven : inter = true → moments.length % 2 = 0) :
    ∃ M res, f.mat half m = .ok M ∧ withOff half M map ⟨false, inter⟩ val moments r = .ok res ∧
      withOff half M map ⟨true, inter⟩ val moments r = .ok res := by
  obtain ⟨M, e, hM⟩ := f.implements (half := half) h hr hc hv
  have hH : m.toMatrix n = (2 : K) • (half • m.toMatrix n) := by
    rw [smul_smul, mul_comm, hhalf, one_smul]
  exact ⟨M, _, e, withOff_eq hhalf hM hH hval ⟨fun _ => hS, fun _ => hsrc, fun _ => hdest⟩ h2 heven,
    withOff_eq hhalf hM hH hval ⟨fun _ => hS, fun _ => hsrc, fun _ => hdest⟩ h2 heven⟩

/-- **C27** (diagonal).  The same for the diagonal algorithms, where sources and destinations coincide. -/
theorem C27_diagonal [CommRing K] [StarRing K] [CommRing V] [StarRing V] [Algebra K V] [StarModule K V]
    {half : K} (hhalf : half * 2 = 1) (hhs : star half = half) (f : Format K n V) {m : Raw K} (h : m.WF)
    (hr : m.rows = n) (hc : m.cols = n) (hv : f.Valid m) (hherm : (m.toMatrix n).IsHermitian)
    (map : SliceMap) (hS : Slices map.data (m.toMatrix n)) (r : Fin n → V)
    (hsrc : ZeroAbove map.data map.src r) (hsd : map.src = map.dest)
    (moments : List V) (h2 : 2 ≤ moments.length) (heven : moments.length % 2 = 0)
    (inter : Bool) (h4 : inter = true → moments.length % 4 = 2) :
    ∃ M res, f.mat half m = .ok M ∧ withDiag half M map ⟨false, inter⟩ moments r = .ok res ∧
      withDiag half M map ⟨true, inter⟩ moments r = .ok res := by
  obtain ⟨M, e, hM⟩ := f.implements (half := half) h hr hc hv
  have hH : m.toMatrix n = (2 : K) • (half • m.toMatrix n) := by
    rw [smul_smul, mul_comm, hhalf, one_smul]
  have hh : (half • m.toMatrix n).IsHermitian := by
    unfold Matrix.IsHermitian
    rw [Matrix.conjTranspose_smul, hhs, hherm.eq]
  exact ⟨M, _, e, withDiag_eq hhalf hM hH hh (fun _ => hS) (fun _ => ⟨hsrc, le_of_eq hsd⟩) h2 heven h4,
    withDiag_eq hhalf hM hH hh (fun _ => hS) (fun _ => ⟨hsrc, le_of_eq hsd⟩) h2 heven h4⟩

/-! ## C28: interleaving -/

/-- **C28** (off-diagonal).  If the slices fit the matrix, interleaving two moments per sweep changes nothing:
not for any starting vector, collector, content of the moments array or sizes. -/
theorem C28_offdiagonal [CommRing K] [CommRing V] [StarRing V] [Module K V] [SMul K α]
    {half : K} (f : Format K n V) {m : Raw K} (h : m.WF) (hr : m.rows = n) (hc : m.cols = n)
    (hv : f.Valid m) (map : SliceMap) (hS : Slices map.data (m.toMatrix n)) (r : Fin n → V)
    (val : (Fin n → V) → Res α) (moments : List α) (heven : moments.length % 2 = 0) (opt : Bool) :
    ∃ M, f.mat half m = .ok M ∧
      withOff half M map ⟨opt, true⟩ val moments r = withOff half M map ⟨opt, false⟩ val moments r := by
  obtain ⟨M, e, hM⟩ := f.implements (half := half) h hr hc hv
  refine ⟨M, e, ?_⟩
  unfold withOff
  rw [hM.r1, Res.bind_ok, Res.bind_ok]
  refine bind_congr' _ _ _ fun ms hms => ?_
  have hlen : ms.length = moments.length := by
    unfold offInitial at hms
    rcases hv0 : val r with a | _ | _ <;> rw [hv0] at hms
    · rw [Res.bind_ok] at hms
      unfold wr at hms
      by_cases h0 : 0 < moments.length
      · rw [if_pos h0, Res.bind_ok] at hms
        rcases hv1 : val (half • act (m.toMatrix n) r) with b | _ | _ <;> rw [hv1] at hms
        · rw [Res.bind_ok] at hms
          split at hms
          · rw [← Res.ok.inj hms, List.length_set, List.length_set]
          · cases hms
        · cases hms
        · cases hms
      · rw [if_neg h0] at hms; cases hms
    · cases hms
    · cases hms
  simp only [Bool.false_eq_true, if_true, if_false]
  exact offInterleaved_eq hM hS opt val ms (by rw [hlen]; exact heven) r _

/-- **C28** (diagonal). -/
theorem C28_diagonal [CommRing K] [CommRing V] [StarRing V] [Module K V]
    {half : K} (f : Format K n V) {m : Raw K} (h : m.WF) (hr : m.rows = n) (hc : m.cols = n)
    (hv : f.Valid m) (map : SliceMap) (hS : Slices map.data (m.toMatrix n)) (r : Fin n → V)
    (moments : List V) (h4 : moments.length % 4 = 2) (opt : Bool) :
    ∃ M, f.mat half m = .ok M ∧
      withDiag half M map ⟨opt, true⟩ moments r = withDiag half M map ⟨opt, false⟩ moments r := by
  obtain ⟨M, e, hM⟩ := f.implements (half := half) h hr hc hv
  refine ⟨M, e, ?_⟩
  unfold withDiag
  rw [hM.r1, Res.bind_ok, Res.bind_ok]
  refine bind_congr' _ _ _ fun c hcol => ?_
  have hlen : c.moments.length = moments.length := by
    unfold DiagCol.initial at hcol
    simp only at hcol
    rw [wr_ok (by omega), Res.bind_ok, wr_ok (by rw [List.length_set]; omega), Res.bind_ok] at hcol
    rw [← Res.ok.inj hcol]
    simp
  simp only [Bool.false_eq_true, if_true, if_false]
  rw [diagInterleaved_eq hM hS opt c (by rw [hlen]; exact h4)]

/-- **C28** (the number of moments must be rounded).  With a multiple of 4 the interleaved diagonal algorithm
always writes behind the end of its array: this is why the API rounds the number of moments (C34). -/
theorem C28_unrounded_out_of_bounds [CommRing K] [CommRing V] [StarRing V] [Module K V]
    {half : K} (f : Format K n V) {m : Raw K} (h : m.WF) (hr : m.rows = n) (hc : m.cols = n)
    (hv : f.Valid m) (map : SliceMap) (hS : Slices map.data (m.toMatrix n)) (r : Fin n → V)
    (moments : List V) (h4 : moments.length % 4 = 0) (h0 : moments ≠ []) (opt : Bool) :
    ∃ M, f.mat half m = .ok M ∧ withDiag half M map ⟨opt, true⟩ moments r = .ub := by
  obtain ⟨M, e, hM⟩ := f.implements (half := half) h hr hc hv
  refine ⟨M, e, ?_⟩
  have hpos : 0 < moments.length := List.length_pos_of_ne_nil h0
  unfold withDiag DiagCol.initial
  simp only [hM.r1, Res.bind_ok]
  rw [wr_ok (by omega), Res.bind_ok, wr_ok (by rw [List.length_set]; omega), Res.bind_ok]
  simp only [Res.pure_eq, Res.bind_ok, if_true]
  generalize hcol : (⟨_, _, _⟩ : DiagCol V) = col
  have hlen : col.moments.length = moments.length := by rw [← hcol]; simp
  unfold diagInterleaved
  simp only
  rw [hlen, foldlM_pairs _ (diagBasicStep M map opt moments.length) 2 _
    (fun s k h1 h2 => diagInterStep_eq hM hS opt _ s k (by omega)),
    show 2 * (moments.length / 2 / 2) = (moments.length / 2 - 1) + 1 by omega, List.range'_concat, List.foldlM_append]
  have key := foldlM_inv (diagBasicStep M map opt moments.length) (fun _ s => s.col.moments.length = moments.length)
    (moments.length / 2 - 1) 2 ?_ ⟨col, r, half • act (m.toMatrix n) r⟩ hlen
  · obtain ⟨s, e1, hs⟩ := key
    rw [e1, Res.bind_ok]
    simp only [List.foldlM_cons, List.foldlM_nil]
    unfold diagBasicStep
    rw [sizeFor_eq (fun _ => hS.nonempty) hS.last (by omega), Res.bind_ok,
      hM.diag _ _ _ _ _ _ (Nat.zero_le _) (rowsFor_le hS _ _ _), Res.bind_ok]
    unfold DiagCol.collect wr
    rw [if_neg (by omega)]
    rfl
  · intro k s hk2 hk hs
    unfold diagBasicStep
    rw [sizeFor_eq (fun _ => hS.nonempty) hS.last (by omega), Res.bind_ok,
      hM.diag _ _ _ _ _ _ (Nat.zero_le _) (rowsFor_le hS _ _ _), Res.bind_ok]
    unfold DiagCol.collect
    rw [wr_ok (by omega), Res.bind_ok, wr_ok (by rw [List.length_set]; omega), Res.bind_ok]
    refine ⟨_, rfl, ?_⟩
    simp [hs]

/-! ## Examples: the hypotheses can be met -/

/-- Only finitely many slices have to be checked. -/
theorem Slices.of_lt [Zero K] {data : List Nat} {A : Matrix (Fin n) (Fin n) K} (h0 : data ≠ [])
    (hm : data.Pairwise (· ≤ ·)) (hl : border data (data.length - 1) = n)
    (hr : ∀ i j, ∀ k < data.length - 1, A i j ≠ 0 → i.val < border data k → j.val < border data (k + 1))
    (hc : ∀ i j, ∀ k < data.length - 1, A i j ≠ 0 → j.val < border data k → i.val < border data (k + 1)) :
    Slices data A := by
  have last : ∀ k, ¬ k < data.length - 1 → border data (k + 1) = n := fun k hk => by
    rw [border_sat _ (by omega), hl]
  refine ⟨h0, hm, hl, fun i j k hz hi => ?_, fun i j k hz hj => ?_⟩
  · by_cases hk : k < data.length - 1
    · exact hr i j k hk hz hi
    · rw [last k hk]; exact j.isLt
  · by_cases hk : k < data.length - 1
    · exact hc i j k hk hz hj
    · rw [last k hk]; exact i.isLt

/-- A chain of three sites, reordered from its end: twice the scaled Hamiltonian. -/
def chain3 : Raw ℚ := ⟨3, 3, [0, 1, 3, 4], [1, 0, 2, 1], [1, 1, 1, 1]⟩

theorem chain3_wf : chain3.WF := by
  refine ⟨rfl, rfl, ?_, ?_, rfl, ?_⟩ <;> decide

theorem chain3_entry (i j : Fin 3) : chain3.toMatrix 3 i j = if i.val + 1 = j.val ∨ j.val + 1 = i.val then 1 else 0 := by
  fin_cases i <;> fin_cases j <;> simp [chain3, Raw.toMatrix, Raw.row]

theorem chain3_slices : Slices [1, 2, 3] (chain3.toMatrix 3) := by
  have ne : ∀ i j : Fin 3, chain3.toMatrix 3 i j ≠ 0 → i.val + 1 = j.val ∨ j.val + 1 = i.val := by
    intro i j h
    by_contra hc
    rw [chain3_entry, if_neg hc] at h
    exact h rfl
  refine Slices.of_lt (by simp) (by decide) rfl (fun i j k hk hz hi => ?_) (fun i j k hk hz hi => ?_)
  all_goals
    have := ne i j hz
    have hk' : k < 2 := hk
    have hk2 : k = 0 ∨ k = 1 := by omega
    rcases hk2 with rfl | rfl <;> simp [border] at hi ⊢ <;> omega

example (r : Fin 3 → ℚ) := C26_diagonal (n := 3) (half := (1 / 2 : ℚ)) (by norm_num) (.csr (fun _ => 7)) chain3_wf rfl rfl trivial
  (H := (1 / 2 : ℚ) • chain3.toMatrix 3) (by rw [smul_smul]; norm_num) (by
    apply Matrix.IsHermitian.ext
    intro i j
    rw [Matrix.smul_apply, Matrix.smul_apply, chain3_entry, chain3_entry]
    simp only [star_trivial, or_comm]) (.single 3) r [1, 2, 3, 4] (by decide) (by decide)

/-- The starting vector is the end of the chain; the value at the next site is collected; 6 moments. -/
example (inter : Bool) := C27_offdiagonal (n := 3) (V := ℚ) (half := (1 / 2 : ℚ)) (by norm_num) (.csr (fun _ => 7)) chain3_wf rfl rfl
  trivial ⟨[1, 2, 3], 0, 1⟩ chain3_slices (fun i => if i.val = 0 then 1 else 0)
  (fun i hi => by have : (1 : Nat) ≤ i.val := hi; simp; omega) (fun x => .ok (x 1)) (fun x => x 1) (fun _ => rfl)
  (fun x y h => h 1 (by decide)) [0, 0, 0, 0, 0, 0] (by decide) inter (by simp)

example (inter : Bool) := C27_diagonal (n := 3) (V := ℚ) (half := (1 / 2 : ℚ)) (by norm_num) rfl (.csr (fun _ => 7)) chain3_wf rfl rfl
  trivial (by
    apply Matrix.IsHermitian.ext
    intro i j
    rw [chain3_entry, chain3_entry]
    simp only [star_trivial, or_comm]) ⟨[1, 2, 3], 0, 0⟩ chain3_slices (fun i => if i.val = 0 then 1 else 0)
  (fun i hi => by have : (1 : Nat) ≤ i.val := hi; simp; omega) rfl [0, 0, 0, 0, 0, 0] (by decide) (by decide) inter
  (by simp)

example (opt : Bool) (r : Fin 3 → ℚ) := C28_diagonal (half := (1 / 2 : ℚ)) (.ellSimd 4 8 (fun _ _ => 5) (fun _ _ => 9)
    (fun _ _ _ _ r => r % 4 == 0) 4) chain3_wf rfl rfl ⟨by decide, by decide, by decide, 0, by decide, by decide⟩
  ⟨[1, 2, 3], 0, 1⟩ chain3_slices r [0, 0, 0, 0, 0, 0] (by decide) opt

end Verif.Kpm
