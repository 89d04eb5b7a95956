import Verif.Kpm.CoreLemmas
import Verif.Kpm.PropsConfig
import Verif.Kpm.PropsKernel
import Verif.Kpm.PropsBatch
import Verif.Kpm.Props

/-!
# Properties of the calculations of `kpm::Core` (C51, C59)

The results of the calculations in terms of the Hamiltonian: the whole path from the arguments through the choice of
the algorithm, the reordered matrix, its storage format, the vectors and the collectors.
-/

namespace Verif.Kpm

open Verif.Numeric Polynomial
open Verif.Hopping (Csr)
open Verif.Hamiltonian (Sorted coeff)

variable {K V α : Type} {n : Nat}

/-! ## Specification -/

/-- The zeroth moment is halved. -/
def weight [One K] (half : K) (k : Nat) : K := if k = 0 then half else 1

/-- `T_k((H - b) / a)`. -/
noncomputable def chebMat [CommRing K] (n : Nat) (half : K) (h : Csr K) (invA b : K) (k : Nat) : Matrix (Fin n) (Fin n) K :=
  aeval (scaled n half h invA b) (Chebyshev.T K k)

/-- What a calculation needs: real scale factors, a Hermitian Hamiltonian that is not a multiple `b` of the identity
and, if the matrix is reordered, a system in which every index is connected to the first target. -/
structure Setup [CommRing K] [StarRing K] (half : K) (h : Csr K) (invA b : K) (cfg : AlgorithmConfig) (first : Fin n) : Prop where
  two : half * 2 = 1
  halfReal : star half = half
  invReal : star invA = invA
  bReal : star b = b
  sorted : Sorted n h
  hermitian : (matrixOf n h).IsHermitian
  nonzero : doubled n h invA b ≠ 0
  connected : cfg.reorder = true → ∀ i : Fin n, Reach h first i

/-- The optimized matrix with its kernels. -/
theorem Setup.run [CommRing K] [StarRing K] [DecidableEq K] {half invA b : K} {h : Csr K} {cfg : AlgorithmConfig} {first : Fin n}
    (S : Setup half h invA b cfg first) (src dest : List (Fin n)) (hd : dest ≠ []) :
    ∃ (o : Optimized K) (σ : Equiv.Perm (Fin n)),
      optimizeFor cfg.reorder h invA b ((first :: src).map (·.val)) (dest.map (·.val)) = .ok o ∧
      Prepared cfg.reorder h invA b (first :: src) dest o σ :=
  optimizeFor_ok S.sorted invA b cfg.reorder first src dest hd S.connected fun i j => pattern_symm S.hermitian i j

/-! ## C51: expectation values -/

theorem asFn_ofFn (x : Fin n → V) : asFn n (List.ofFn x) = .ok x := by
  unfold asFn
  rw [dif_pos (List.length_ofFn)]
  congr 1
  funext i
  simp

theorem reorder_cases (cfg : AlgorithmConfig) : cfg.optimalSize = true ∨ cfg.interleaved = true → cfg.reorder = true := by
  unfold AlgorithmConfig.reorder
  rintro (h | h) <;> simp [h]

theorem moved_inj {σ : Equiv.Perm (Fin n)} {a b : Fin n} (h : (σ a).val = (σ b).val) : a = b := σ.injective (Fin.ext h)

/-- The optional arguments of `KPM::moments`: an empty vector and an empty matrix if absent. -/
def vecArg (v : Option (Fin n → K)) : List K := match v with | some x => List.ofFn x | none => []

/-- See `vecArg`. -/
def opArg (n : Nat) (op : Option (Csr K)) : OpArg K := match op with | some m => ⟨n, n, m⟩ | none => ⟨0, 0, []⟩

/-- The operator as a matrix, the identity if absent. -/
def opMat [CommRing K] (n : Nat) (op : Option (Csr K)) : Matrix (Fin n) (Fin n) K :=
  match op with | some m => matrixOf n m | none => 1

theorem rawMoments_eq [CommRing K] [StarRing K] [DecidableEq K] {half invA b : K} {h : Csr K} {cfg : AlgorithmConfig}
    (hn : 0 < n) (S : Setup half h invA b cfg (⟨0, hn⟩ : Fin n)) {f : Format K n K} (hf : f.Aligned)
    {N : Nat} (h2 : 2 ≤ N) (h4 : N % 4 = 2) (alpha : Fin n → K) (beta : Option (Fin n → K)) (op : Option (Csr K))
    (hop : ∀ m, op = some m → Sorted n m) (junk : Nat → K) :
    ∃ o, optimizeFor cfg.reorder h invA b [0] [0] = .ok o ∧
      rawMoments half f { cfg with optimalSize := false } o N (List.ofFn alpha) (vecArg beta) (opArg n op) junk =
        .ok ((List.range N).map fun k =>
          weight half k * inner (beta.getD alpha) (act (opMat n op) (act (chebMat n half h invA b k) alpha))) := by
  obtain ⟨o, σ, e, P⟩ := S.run [] [⟨0, hn⟩] (by simp)
  refine ⟨o, e, ?_⟩
  obtain ⟨M, eM, hM⟩ := P.implements (half := half) hf S.nonzero
  have hA := doubled_eq (n := n) S.two h invA b σ
  have hS : (false : Bool) = true ∨ cfg.interleaved = true → Slices o.slices.data ((doubled n h invA b).submatrix σ.symm σ.symm) := by
    intro hc
    rw [← P.mat]
    exact P.slices (reorder_cases cfg (Or.inr (by simpa using hc)))
  have hlen : ((List.range N).map junk).length = N := by simp
  have hst : constantStart n o (fun i => junk i) (List.ofFn alpha) = .ok (moved σ alpha) := by
    unfold constantStart
    rw [P.vec, Res.bind_ok, asFn_ofFn]
  unfold rawMoments
  rw [eM, Res.bind_ok, hst, Res.bind_ok]
  by_cases hdiag : beta = none ∧ op = none
  · obtain ⟨rfl, rfl⟩ := hdiag
    rw [if_pos ⟨rfl, by rfl⟩]
    have hherm : ((scaled n half h invA b).submatrix σ.symm σ.symm).IsHermitian :=
      (scaled_isHermitian S.halfReal S.invReal S.bReal S.hermitian).submatrix _
    rw [withDiag_eq S.two hM hA hherm hS (by simp) (by omega) (by omega) (by intro _; omega), hlen]
    congr 1
    refine List.map_congr_left fun k _ => ?_
    rw [diagMoment_moved]
    simp only [diagMoment, weight, chebMat, opMat, chebVec, act_one, Option.getD_none]
    split
    · rename_i hk; subst hk; rfl
    · rw [one_mul]
  · have hcond : ¬ ((vecArg beta).length = 0 ∧ (opArg n op).absent = true) := by
      rintro ⟨h1, h3⟩
      refine hdiag ⟨?_, ?_⟩
      · cases beta with
        | none => rfl
        | some v => simp [vecArg] at h1; omega
      · cases op with
        | none => rfl
        | some m => simp [opArg, OpArg.absent] at h3; omega
    rw [if_neg hcond]
    have hb : (if (vecArg beta).length ≠ 0 then vecArg beta else List.ofFn alpha) = List.ofFn (beta.getD alpha) := by
      cases beta with
      | none => simp [vecArg]
      | some v =>
        rw [if_pos]
        · rfl
        · simp [vecArg]; omega
    rw [hb, P.vec, Res.bind_ok, asFn_ofFn, Res.bind_ok]
    obtain ⟨m, em, hval⟩ : ∃ m, collectorOp o (opArg n op) = .ok m ∧ ∀ x, genericValue (moved σ (beta.getD alpha)) m (moved σ x) =
        inner (beta.getD alpha) (act (opMat n op) x) := by
      cases op with
      | none =>
        refine ⟨none, rfl, fun x => ?_⟩
        simp only [genericValue, opMat, act_one]
        rw [eigenDot_eq, inner_moved]
      | some m =>
        obtain ⟨m', e1, e2⟩ := P.op m (hop m rfl)
        refine ⟨some m', ?_, fun x => ?_⟩
        · unfold collectorOp
          rw [if_neg (by simp [opArg, OpArg.absent]; omega)]
          simp only [opArg]
          rw [e1, Res.bind_ok]
          rfl
        · simp only [genericValue, opMat]
          rw [e2, eigenDot_eq, act_moved, inner_moved]
    rw [em, Res.bind_ok, withOff_eq (l := genericValue (moved σ (beta.getD alpha)) m) S.two hM hA (fun _ => rfl)
      ⟨hS, by simp, by simp⟩ (by omega) (by intro _; omega), hlen]
    congr 1
    refine List.map_congr_left fun k _ => ?_
    unfold offMoment weight
    rw [chebVec_moved, chebVec_moved, hval, hval]
    simp only [chebVec, chebMat, smul_eq_mul]
    split
    · rename_i hk; subst hk; rfl
    · rw [one_mul]

/-- **C51** (moments).  For every number of moments, vectors, operator, kernel, storage format and choice of
algorithms: entry `k` of the result of `moments` is the damping factor `k` for the rounded number of moments times
`<beta|op T_k((H - b) / a)|alpha>`, the zeroth halved. -/
theorem C51_moments [CommRing K] [StarRing K] [DecidableEq K] [SMul ℝ K] {half invA b : K} {h : Csr K} {cfg : AlgorithmConfig}
    (hn : 0 < n) (S : Setup half h invA b cfg (⟨0, hn⟩ : Fin n)) {f : Format K n K} (hf : f.Aligned) (g : Nat → Nat → ℝ)
    (isComplex : Bool) (isReal : K → Bool) (num : Nat) (alpha : Fin n → K) (beta : Option (Fin n → K)) (op : Option (Csr K))
    (hop : ∀ m, op = some m → Sorted n m)
    (hreal : isComplex = false → (∀ i, isReal (alpha i)) ∧ (∀ v, beta = some v → ∀ i, isReal (v i)) ∧
      ∀ m, op = some m → ∀ r ∈ m, ∀ e ∈ r, isReal e.2) (junk : Nat → K) :
    ∃ N : Nat, roundNumMoments 4 num = some (N : Int) ∧ num ≤ N ∧
      kpmMoments half f cfg g isComplex isReal h invA b num (List.ofFn alpha) (vecArg beta) (opArg n op) junk =
        .ok ((List.range num).map fun k => g N k •
          (weight half k * inner (beta.getD alpha) (act (opMat n op) (act (chebMat n half h invA b k) alpha)))) := by
  obtain ⟨r, er, hr1, hr2, -, -⟩ := C34_rounding 4 (le_refl 4) num
  obtain ⟨N, rfl⟩ : ∃ N : Nat, r = N := ⟨r.toNat, by have := hr2.1; omega⟩
  refine ⟨N, er, by omega, ?_⟩
  have hl : h.length = n := S.sorted.1
  unfold kpmMoments
  rw [if_neg, if_neg]
  · obtain ⟨o, eo, em⟩ := rawMoments_eq hn S hf (N := N) (by have := hr2.1; omega) (by have := hr2.2.2; omega) alpha beta op hop junk
    unfold coreMoments
    rw [eo, Res.bind_ok, er]
    simp only [Int.toNat_natCast]
    rw [em, Res.bind_ok, damp_range]
    unfold extractData
    rw [if_pos (by simp; omega)]
    congr 1
    simp only [Int.toNat_natCast]
    rw [← List.map_take, List.take_range, Nat.min_eq_left (by omega)]
  · rintro ⟨h1, h3⟩
    obtain ⟨ha, hb, hc⟩ := hreal h1
    refine h3 ⟨?_, ?_, ?_⟩
    · rw [List.all_eq_true]
      intro x hx
      obtain ⟨i, rfl⟩ := (List.mem_ofFn' _ _).1 hx
      exact ha i
    · rw [List.all_eq_true]
      intro x hx
      cases beta with
      | none => simp [vecArg] at hx
      | some v =>
        obtain ⟨i, rfl⟩ := (List.mem_ofFn' _ _).1 hx
        exact hb v rfl i
    · rw [List.all_eq_true]
      intro r hr
      rw [List.all_eq_true]
      intro e he
      cases op with
      | none => simp [opArg] at hr
      | some m => exact hc m rfl r hr e he
  · rw [not_not]
    refine ⟨by simp [hl], ?_, ?_⟩
    · cases beta with
      | none => left; rfl
      | some v => right; simp [vecArg, hl]
    · cases op with
      | none => left; rfl
      | some m => right; exact ⟨hl.symm, hl.symm⟩

/-- **C51** (rejected arguments).  `moments` throws exactly when the size of an argument does not match the
Hamiltonian, or a complex argument is given for a real model; nothing else is computed in this case. -/
theorem C51_moments_rejected [CommRing K] [StarRing K] [DecidableEq K] [SMul ℝ K] (half invA b : K) (h : Csr K)
    (cfg : AlgorithmConfig) (f : Format K n K) (g : Nat → Nat → ℝ) (isComplex : Bool) (isReal : K → Bool) (num : Int)
    (alpha beta : List K) (op : OpArg K) (junk : Nat → K)
    (hbad : alpha.length ≠ h.length ∨ (beta ≠ [] ∧ beta.length ≠ h.length) ∨
      (op.rows ≠ 0 ∧ op.cols ≠ 0 ∧ ¬ (op.rows = h.length ∧ op.cols = h.length)) ∨
      (isComplex = false ∧ ((∃ x ∈ alpha, isReal x = false) ∨ (∃ x ∈ beta, isReal x = false) ∨
        ∃ r ∈ op.data, ∃ e ∈ r, isReal e.2 = false))) :
    kpmMoments half f cfg g isComplex isReal h invA b num alpha beta op junk = .err .runtimeError := by
  unfold kpmMoments
  by_cases hsz : ¬ (alpha.length = h.length ∧ (beta.length = 0 ∨ beta.length = h.length) ∧
      (op.absent ∨ (op.rows = h.length ∧ op.cols = h.length)))
  · rw [if_pos hsz]
  · rw [if_neg hsz, if_pos]
    rw [not_not] at hsz
    obtain ⟨s1, s2, s3⟩ := hsz
    rcases hbad with hb | hb | hb | ⟨hc, hb⟩
    · exact absurd s1 hb
    · exfalso
      rcases s2 with s2 | s2
      · exact hb.1 (List.length_eq_zero_iff.1 s2)
      · exact hb.2 s2
    · exfalso
      rcases s3 with s3 | s3
      · have : op.rows * op.cols = 0 := by simpa [OpArg.absent] using s3
        rcases Nat.mul_eq_zero.1 this with h0 | h0
        · exact hb.1 h0
        · exact hb.2.1 h0
      · exact hb.2.2 s3
    · refine ⟨hc, ?_⟩
      rintro ⟨a1, a2, a3⟩
      rw [List.all_eq_true] at a1 a2 a3
      rcases hb with ⟨x, hx, e⟩ | ⟨x, hx, e⟩ | ⟨r, hr, x, hx, e⟩
      · have := a1 x hx; rw [e] at this; cases this
      · have := a2 x hx; rw [e] at this; cases this
      · have := a3 r hr
        rw [List.all_eq_true] at this
        have := this x hx
        rw [e] at this
        cases this

/-! ## C51: Green's functions -/

theorem multiUnit_eq {σ : Equiv.Perm (Fin n)} (dest : List (Fin n)) {l : List Nat} (hl : l = dest.map fun i => (σ i).val)
    (x : Fin n → K) :
    multiUnit l x = .ok fun i : Fin l.length => x (σ (dest[i.val]'(Nat.lt_of_lt_of_eq i.isLt ((congrArg List.length hl).trans (List.length_map _))))) := by
  subst hl
  unfold multiUnit
  rw [dif_pos]
  · congr 1
    funext i
    congr 1
    apply Fin.ext
    simp
  · intro d hd
    obtain ⟨i, -, rfl⟩ := List.mem_map.1 hd
    exact (σ i).isLt

/-- **C51** (Green's functions).  For every row, non-empty list of columns, storage format and choice of algorithms:
moment `k` for column `c` is the element `(c, row)` of `T_k((H - b) / a)`, the zeroth halved. -/
theorem C51_greens [CommRing K] [StarRing K] [DecidableEq K] {half invA b : K} {h : Csr K} {cfg : AlgorithmConfig}
    {row : Fin n} (S : Setup half h invA b cfg row) {f : Format K n K} (hf : f.Aligned) {num : Nat} (h2 : 2 ≤ num)
    (h4 : num % 4 = 2) (cols : List (Fin n)) (hcols : cols ≠ []) (junk : Nat → K) :
    greensMoments half f cfg h invA b num row (cols.map (·.val)) junk =
      .ok (cols.map fun c => (List.range num).map fun k => weight half k * chebMat n half h invA b k c row) := by
  obtain ⟨o, σ, e, P⟩ := S.run [] cols hcols
  obtain ⟨M, eM, hM⟩ := P.implements (half := half) hf S.nonzero
  have hA := doubled_eq (n := n) S.two h invA b σ
  have hS : cfg.optimalSize = true ∨ cfg.interleaved = true →
      Slices o.slices.data ((doubled n h invA b).submatrix σ.symm σ.symm) := by
    intro hc
    rw [← P.mat]
    exact P.slices (reorder_cases cfg hc)
  have hst : unitStart n o.src 0 = .ok (moved σ (unitVec row) : Fin n → K) := by
    rw [P.src_eq, unitStart_eq]; rfl
  have hz : cfg.optimalSize = true → ZeroAbove (V := K) o.slices.data o.slices.src (moved σ (unitVec row)) := fun hc =>
    zeroAbove_moved (P.srcBelow (reorder_cases cfg (Or.inl hc)) row (by simp))
  unfold greensMoments
  simp only [List.map_cons, List.map_nil] at e
  rw [e, Res.bind_ok, eM, Res.bind_ok, hst, Res.bind_ok]
  by_cases hd : o.src = o.dest
  · rw [if_pos hd]
    have hc : cols = [row] := by
      rw [P.src_eq, P.dest_eq] at hd
      exact ((List.map_injective_iff.2 fun a b hab => moved_inj (σ := σ) hab) hd).symm
    subst hc
    have hherm : ((scaled n half h invA b).submatrix σ.symm σ.symm).IsHermitian :=
      (scaled_isHermitian S.halfReal S.invReal S.bReal S.hermitian).submatrix _
    rw [withDiag_eq S.two hM hA hherm hS
      (fun hc => ⟨hz hc, le_of_eq (P.srcDest (reorder_cases cfg (Or.inl hc)) rfl)⟩) (by simpa using h2)
      (by simp; omega) (by intro _; simpa using h4), Res.bind_ok]
    show Res.ok _ = Res.ok _
    simp only [List.length_map, List.length_range, List.map_cons, List.map_nil]
    congr 2
    refine List.map_congr_left fun k _ => ?_
    rw [diagMoment_moved]
    simp only [diagMoment, weight, chebMat, chebVec_unitVec, inner_unitVec]
    split
    · rename_i hk; subst hk; rfl
    · rw [one_mul]
  · rw [if_neg hd]
    have hidx : ∀ i : Fin o.dest.length, i.val < cols.length := fun i => by
      have := i.isLt; simpa [P.dest_eq] using this
    rw [withOff_eq (l := fun x => fun i : Fin o.dest.length => x (σ (cols[i.val]'(hidx i)))) S.two hM hA
      (fun x => multiUnit_eq cols P.dest_eq x) ⟨hS, hz, ?_⟩ (by simpa using h2) (by intro _; simp; omega), Res.bind_ok]
    · show Res.ok _ = Res.ok _
      congr 1
      refine List.ext_getElem (by simp [P.dest_eq]) fun i h1 h3 => ?_
      simp only [List.getElem_map, List.getElem_finRange, List.map_map, List.length_map, List.length_range]
      refine List.map_congr_left fun k _ => ?_
      simp only [Function.comp, offMoment, weight, chebMat]
      rw [chebVec_moved, chebVec_moved]
      split
      · rename_i hk; subst hk
        simp only [Pi.smul_apply, moved_moved, chebVec_unitVec, smul_eq_mul]
        rfl
      · simp only [moved_moved, chebVec_unitVec, one_mul]
        rfl
    · intro hc x y hxy
      funext i
      exact hxy _ (P.destBelow (reorder_cases cfg (Or.inl hc)) _ (List.getElem_mem _))

/-! ## C51: local density of states -/

theorem ldosColumn_eq [CommRing K] [StarRing K] [DecidableEq K] {half invA b : K} {h : Csr K} {cfg : AlgorithmConfig}
    {first : Fin n} {rest : List (Fin n)} (S : Setup half h invA b cfg first) {o : Optimized K} {σ : Equiv.Perm (Fin n)}
    (P : Prepared cfg.reorder h invA b (first :: rest) (first :: rest) o σ) [CommRing V] [StarRing V] [Algebra K V] [StarModule K V]
    {M : Mat n V} (hM : Implements half M ((doubled n h invA b).submatrix σ.symm σ.symm)) {num : Nat} (h2 : 2 ≤ num)
    (h4 : num % 4 = 2) (junk : List V) (hj : junk.length = num) (x : Fin n → V)
    (hx : ∀ i, i ∉ first :: rest → x i = 0) :
    withDiag half M o.slices cfg junk (moved σ x) = .ok ((List.range num).map (diagMoment half (scaled n half h invA b) x)) := by
  have hA := doubled_eq (n := n) S.two h invA b σ
  have hherm : ((scaled n half h invA b).submatrix σ.symm σ.symm).IsHermitian :=
    (scaled_isHermitian S.halfReal S.invReal S.bReal S.hermitian).submatrix _
  rw [withDiag_eq S.two hM hA hherm ?_ ?_ (by omega) (by omega) (by intro _; omega), hj]
  · congr 1
    exact List.map_congr_left fun k _ => diagMoment_moved half σ _ x k
  · intro hc
    rw [← P.mat]
    exact P.slices (reorder_cases cfg hc)
  · intro hc
    have hr := reorder_cases cfg (Or.inl hc)
    refine ⟨fun j hj => hx _ fun hmem => ?_, le_of_eq (P.srcDest hr rfl)⟩
    have := P.srcBelow hr _ hmem
    rw [σ.apply_symm_apply] at this
    omega

/-- The `k`-th vector that the starter makes for the targets `idx`: a unit vector, or zero past the end. -/
def startVec [Zero K] [One K] (idx : List (Fin n)) (k : Nat) : Fin n → K :=
  match idx[k]? with
  | some i => unitVec i
  | none => 0

theorem startVec_out [Zero K] [One K] (idx : List (Fin n)) (k : Nat) (i : Fin n) (hi : i ∉ idx) : startVec (K := K) idx k i = 0 := by
  unfold startVec
  cases e : idx[k]? with
  | none => rfl
  | some j =>
    simp only [unitVec]
    rw [if_neg]
    rintro rfl
    exact hi (List.mem_of_getElem? e)

theorem unitStart_moved [Zero K] [One K] (σ : Equiv.Perm (Fin n)) (src : List (Fin n)) (k : Nat) :
    unitStart (K := K) n (src.map fun i => (σ i).val) k = .ok (moved σ (startVec src k)) := by
  rw [unitStart_eq]
  congr 1
  unfold startVec
  cases src[k]? <;> rfl

theorem mapM_ok {β γ : Type} (l : List β) (f : β → Res γ) (g : β → γ) (h : ∀ x ∈ l, f x = .ok (g x)) : l.mapM f = .ok (l.map g) := by
  induction l with
  | nil => rfl
  | cons a l ih =>
    rw [List.mapM_cons, h a (by simp), Res.bind_ok, ih fun x hx => h x (by simp [hx]), Res.bind_ok]
    rfl

theorem unitBlock_eq [Zero K] [One K] (c : Nat) (σ : Equiv.Perm (Fin n)) (src : List (Fin n)) (k : Nat) :
    unitBlock (K := K) n c (src.map fun i => (σ i).val) k =
      .ok (moved σ fun i => fun j : Fin c => startVec src (k + j.val) i) := by
  unfold unitBlock
  rw [mapM_ok _ _ (fun j : Fin c => moved σ (startVec src (k + j.val))) fun j _ => unitStart_moved σ src _, Res.bind_ok]
  show Res.ok _ = Res.ok _
  congr 1
  funext i j
  rw [List.getD_eq_getElem _ _ (by simp)]
  simp [moved]

theorem diagMoment_startVec [CommRing K] [StarRing K] (half : K) (A : Matrix (Fin n) (Fin n) K) (idx : List (Fin n)) (k m : Nat)
    (hk : k < idx.length) : diagMoment half A (startVec idx k) m = weight half m * aeval A (Chebyshev.T K m) idx[k] idx[k] := by
  unfold startVec
  rw [List.getElem?_eq_getElem hk]
  simp only [diagMoment, weight, chebVec_unitVec, inner_unitVec]
  split
  · rename_i hm; subst hm; rfl
  · rw [one_mul]

/-- **C51** (local density of states).  For every non-empty list of targets, storage format, choice of algorithms,
number of worker threads, batch size and schedule of the threads: when the calculation has finished, column `k` of the
data holds the diagonal elements of `T_m((H - b) / a)` at target `k`, the zeroth halved. -/
theorem C51_ldos [CommRing K] [StarRing K] [DecidableEq K] {half invA b : K} {h : Csr K} {cfg : AlgorithmConfig}
    {first : Fin n} (rest : List (Fin n)) (S : Setup half h invA b cfg first) {f : Format K n K} (hf : f.Aligned) {num : Nat}
    (h2 : 2 ≤ num) (h4 : num % 4 = 2) (junk : Nat → K) {W bs : Nat} (hW : 0 < W) (hbs : 0 < bs) :
    ∃ o M, optimizeFor cfg.reorder h invA b ((first :: rest).map (·.val)) ((first :: rest).map (·.val)) = .ok o ∧
      f.mat half (ofRows n o.h2) = .ok M ∧
      ∀ s, Thread.Reach (W := W) (batchSem bs (rest.length + 1) (ldosColumn half M cfg o num junk) concatenator)
          (batchProg W bs (rest.length + 1)) (.ok ⟨0, 0, []⟩) s → s.joined = true →
        ∃ mem, s.mem = .ok mem ∧ mem.data = (first :: rest).map fun i =>
          some (.ok ((List.range num).map fun m => weight half m * chebMat n half h invA b m i i)) := by
  obtain ⟨o, σ, e, P⟩ := S.run rest (first :: rest) (by simp)
  obtain ⟨M, eM, hM⟩ := P.implements (half := half) hf S.nonzero
  refine ⟨o, M, e, eM, fun s hs hj => ?_⟩
  obtain ⟨mem, em, ed⟩ := C30_columns hW hbs (Nat.succ_pos _) _ s hs hj
  refine ⟨mem, em, ?_⟩
  rw [ed]
  refine List.ext_getElem (by simp) fun k h1 h3 => ?_
  have hk : k < (first :: rest).length := by simpa using h1
  simp only [List.getElem_map, List.getElem_range]
  congr 1
  unfold ldosColumn
  rw [P.src_eq, unitStart_moved, Res.bind_ok,
    ldosColumn_eq S P hM h2 h4 _ (by simp) _ fun i hi => startVec_out _ _ i hi]
  congr 1
  exact List.map_congr_left fun m _ => diagMoment_startVec half _ _ k m hk

/-- **C51** (batches).  The moments of a batch of `c` vectors, computed together with any format for batches, are those
of the vectors computed one by one with any format: element `j` of moment `m` is moment `m` of vector `k + j`. -/
theorem C51_ldos_batch [CommRing K] [StarRing K] [DecidableEq K] {half invA b : K} {h : Csr K} {cfg : AlgorithmConfig}
    {first : Fin n} (rest : List (Fin n)) (S : Setup half h invA b cfg first) {f : Format K n K} (hf : f.Aligned) {c : Nat}
    {fb : Format K n (Fin c → K)} (hfb : fb.Aligned) {num : Nat} (h2 : 2 ≤ num) (h4 : num % 4 = 2) (junk junk' : Nat → K) (k : Nat) :
    ∃ o M Mb, optimizeFor cfg.reorder h invA b ((first :: rest).map (·.val)) ((first :: rest).map (·.val)) = .ok o ∧
      f.mat half (ofRows n o.h2) = .ok M ∧ fb.mat half (ofRows n o.h2) = .ok Mb ∧
      ∃ block : List (Fin c → K), ldosBatch half Mb cfg o num junk k = .ok block ∧
        ∀ j : Fin c, ldosColumn half M cfg o num junk' (k + j.val) = .ok (block.map fun v => v j) := by
  obtain ⟨o, σ, e, P⟩ := S.run rest (first :: rest) (by simp)
  obtain ⟨M, eM, hM⟩ := P.implements (half := half) hf S.nonzero
  obtain ⟨Mb, eMb, hMb⟩ := P.implements (half := half) hfb S.nonzero
  refine ⟨o, M, Mb, e, eM, eMb, ?_⟩
  refine ⟨(List.range num).map (diagMoment half (scaled n half h invA b) fun i => fun j : Fin c => startVec (first :: rest) (k + j.val) i), ?_, fun j => ?_⟩
  · unfold ldosBatch
    rw [P.src_eq, unitBlock_eq, Res.bind_ok]
    exact ldosColumn_eq S P hMb h2 h4 _ (by simp) _ fun i hi => funext fun j => startVec_out _ _ i hi
  · unfold ldosColumn
    rw [P.src_eq, unitStart_moved, Res.bind_ok,
      ldosColumn_eq S P hM h2 h4 _ (by simp) _ fun i hi => startVec_out _ _ i hi, List.map_map]
    congr 1
    refine List.map_congr_left fun m _ => ?_
    simp only [Function.comp]
    rw [C26_batch]

/-! ## A ring of four sites -/

/-- A ring of four sites with hopping 1. -/
def quad4 : Csr ℚ := [[(1, 1), (3, 1)], [(0, 1), (2, 1)], [(1, 1), (3, 1)], [(0, 1), (2, 1)]]

theorem quad4_setup (cfg : AlgorithmConfig) : Setup (n := 4) (1 / 2 : ℚ) quad4 (2 / 3) 0 cfg 0 where
  two := by norm_num
  halfReal := rfl
  invReal := rfl
  bReal := rfl
  sorted := by refine ⟨rfl, ?_⟩; decide
  hermitian := by
    have h1 : ∀ i j : Fin 4, Verif.Hamiltonian.coeff quad4 j i = Verif.Hamiltonian.coeff quad4 i j := by decide +kernel
    ext i j; exact h1 i j
  nonzero := by
    intro h0
    have h1 := congrFun (congrFun h0 0) 1
    have h2 : matrixOf 4 quad4 0 1 = 1 := by decide +kernel
    unfold doubled at h1
    rw [Matrix.smul_apply, Matrix.sub_apply, h2] at h1
    simp at h1
  connected := by
    intro _ i
    have h1 : Reach quad4 0 1 := .single ⟨1, by decide +kernel⟩
    have h2 : Reach quad4 0 2 := h1.tail ⟨1, by decide +kernel⟩
    have h3 : Reach quad4 0 3 := h2.tail ⟨1, by decide +kernel⟩
    fin_cases i
    · exact .refl
    · exact h1
    · exact h2
    · exact h3

/-- The hypotheses of C51_greens: the elements (1, 0), (2, 0) and (0, 0) of the ring with the SIMD kernels for ELLPACK. -/
example := C51_greens (quad4_setup ⟨true, true⟩) (f := .ellSimd 4 8 (fun _ _ => 5) (fun _ _ => 9) (fun _ _ _ _ _ => true) 4)
  ⟨by decide, by decide, by decide⟩
  (num := 6) (by norm_num) (by norm_num) [1, 2, 0] (by simp) fun _ => 7

/-- The hypotheses of C51_ldos and C51_ldos_batch: sites 0, 2 and 3 of the ring, three threads and batches of eight. -/
example := C51_ldos [2, 3] (quad4_setup ⟨true, false⟩) (f := .csr fun _ => 5) trivial (num := 10) (by norm_num) (by norm_num)
  (fun _ => 7) (W := 3) (bs := 8) (by norm_num) (by norm_num)

example := C51_ldos_batch [2, 3] (quad4_setup ⟨true, true⟩) (f := .csr fun _ => 5) trivial (c := 4)
  (fb := .csr fun _ => 5) trivial (num := 10) (by norm_num) (by norm_num) (fun _ => 7) (fun _ => 8) 0

end Verif.Kpm
