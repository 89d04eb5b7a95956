import Verif.Kpm.FloatDiag
import Verif.Kpm.StatsLemmas

/-!
# The loops of the diagonal algorithms with rounded kernels

Every diagonal algorithm computes the moments of a run over all rows (`RowRule.Run`): the scalar products that it adds up, slice by slice, are those of the
vectors of the run up to rounding.
-/

namespace Verif.Kpm.Float

open Verif.Numeric Finset

variable {n : Nat} {u : ℝ} {F : Nat → Nat} {d : Nat} {A : RowRule n ℂ} {M : Mat n ℂ} {B : Matrix (Fin n) (Fin n) ℝ} {map : SliceMap}

/-! ## The inner loop of the interleaved algorithm -/

/-- The state of the inner loop after `t` iterations. -/
structure DiagHalf (A : RowRule n ℂ) (u : ℝ) (F : Nat → Nat) (d : Nat) (data : List Nat) (r0 r1 : Fin n → ℂ) (t e1 : Nat) (s : Il n ℂ) : Prop where
  at0 : s.start0 = edge data t
  at1 : s.start1 = e1
  first : A.Moved 0 (edge data t) r1 r0 s.r0
  second : A.Moved 0 e1 s.r0 r1 s.r1
  sum2 : Summed u (F (edge data t) - F 0 + d * t) 0 (edge data t) r1 r1 0 s.m2
  sum3 : Summed u (F (edge data t) - F 0 + d * t) 0 (edge data t) s.r0 r1 0 s.m3
  sum4 : Summed u (F e1 - F 0 + d * t) 0 e1 s.r0 s.r0 0 s.m4
  sum5 : Summed u (F e1 - F 0 + d * t) 0 e1 s.r1 s.r0 0 s.m5

theorem diagIl_one (hu : 0 ≤ u) (hF : Monotone F) (hR : A.Local B) (hM : DiagFollows A u F d M) (hS : Slices map.data B) {p : Nat} {q : Int}
    (hp : (p : Int) ≤ map.lastIndex) {r0 r1 : Fin n → ℂ} {t e1 : Nat} (ht : t ≤ p) {s : Il n ℂ} (hs : DiagHalf A u F d map.data r0 r1 t (edge map.data (t - 1)) s)
    (he : end1For map p q t s.start0 = .ok e1) (hle : edge map.data (t - 1) ≤ e1) (hen : e1 ≤ n) :
    ∃ s', diagIlStep M map p q s t = .ok s' ∧ DiagHalf A u F d map.data r0 r1 (t + 1) e1 s' := by
  have e0 : border map.data ((t : Int)).toNat = edge map.data (t + 1) := by
    rw [Int.toNat_natCast]; rfl
  have hm1 : edge map.data t ≤ edge map.data (t + 1) := edge_mono hS.mono (by omega)
  have hm0 : edge map.data (t - 1) ≤ edge map.data t := edge_mono hS.mono (by omega)
  have hF1 := hF hm1
  have hF0 := hF (Nat.zero_le (edge map.data t))
  have hF2 := hF hle
  have hF3 := hF (Nat.zero_le (edge map.data (t - 1)))
  unfold diagIlStep
  rw [SliceMap.at_eq (by omega) (by omega), Res.bind_ok, he, Res.bind_ok, e0, hs.at0, hs.at1]
  obtain ⟨a, ea, ma, a2, a3⟩ := hM.diag (edge map.data t) (edge map.data (t + 1)) s.r1 s.r0 s.m2 s.m3 hm1 (hS.le _)
  obtain ⟨b, eb, mb, b2, b3⟩ := hM.diag (edge map.data (t - 1)) e1 a.y s.r1 s.m4 s.m5 hle hen
  rw [ea, Res.bind_ok, eb, Res.bind_ok]
  have same : ∀ i : Fin n, i.val < edge map.data t → a.y i = s.r0 i := fun i hi => ma.2 i (by omega)
  have keep1 : ∀ i : Fin n, edge map.data (t - 1) ≤ i.val → s.r1 i = r1 i := fun i hi => hs.second.2 i (by omega)
  have one : A.Moved 0 (edge map.data (t + 1)) r1 r0 a.y := by
    constructor
    · intro i _ hi
      by_cases hc : edge map.data t ≤ i.val
      · have := ma.1 i hc hi
        rw [hs.first.2 i (by omega)] at this
        refine hR.reads i _ _ _ _ (fun j hj => hs.second.2 j ?_) this
        intro hlt
        cases t with
        | zero =>
          have : edge map.data (0 - 1) = 0 := rfl
          omega
        | succ t =>
          have := edge_cols hS hj hlt.2
          simp only [Nat.add_sub_cancel] at this
          omega
      · rw [ma.2 i (by omega)]
        exact hs.first.1 i (Nat.zero_le _) (by omega)
    · intro i hi
      rw [ma.2 i (by omega)]
      exact hs.first.2 i (by omega)
  have two : A.Moved 0 e1 a.y r1 b.y := by
    have old := hR.second_ext hS (le_refl _) same hs.second
    constructor
    · intro i _ hi
      by_cases hc : edge map.data (t - 1) ≤ i.val
      · have := mb.1 i hc hi
        rwa [keep1 i hc] at this
      · rw [mb.2 i (by omega)]
        exact old.1 i (Nat.zero_le _) (by omega)
    · intro i hi
      rw [mb.2 i (by omega)]
      exact hs.second.2 i (by omega)
  refine ⟨_, rfl, rfl, rfl, one, two, ?_, ?_, ?_, ?_⟩
  · have h2 : Summed u (F (edge map.data (t + 1)) - F (edge map.data t) + d) (edge map.data t) (edge map.data (t + 1)) r1 r1 s.m2 a.m2 :=
      a2.congr (fun i hi _ => (keep1 i (by omega)).symm) fun i hi _ => (keep1 i (by omega)).symm
    refine (hs.sum2.join hu (Nat.zero_le _) hm1 h2).mono hu ?_
    rw [Nat.mul_succ]
    omega
  · have h1 : Summed u _ 0 (edge map.data t) a.y r1 0 s.m3 := hs.sum3.congr (fun i _ hi => same i hi) fun _ _ _ => rfl
    have h2 : Summed u (F (edge map.data (t + 1)) - F (edge map.data t) + d) (edge map.data t) (edge map.data (t + 1)) a.y r1 s.m3 a.m3 :=
      a3.congr (fun _ _ _ => rfl) fun i hi _ => (keep1 i (by omega)).symm
    refine (h1.join hu (Nat.zero_le _) hm1 h2).mono hu ?_
    rw [Nat.mul_succ]
    omega
  · have h1 : Summed u _ 0 (edge map.data (t - 1)) a.y a.y 0 s.m4 := hs.sum4.congr (fun i _ hi => same i (by omega)) fun i _ hi => same i (by omega)
    refine (h1.join hu (Nat.zero_le _) hle b2).mono hu ?_
    rw [Nat.mul_succ]
    omega
  · have h1 : Summed u _ 0 (edge map.data (t - 1)) b.y a.y 0 s.m5 := hs.sum5.congr (fun i _ hi => mb.2 i (by omega)) fun i _ hi => same i (by omega)
    refine (h1.join hu (Nat.zero_le _) hle b3).mono hu ?_
    rw [Nat.mul_succ]
    omega

theorem diagIl_eq (hu : 0 ≤ u) (hF : Monotone F) (hR : A.Local B) (hM : DiagFollows A u F d M) (hS : Slices map.data B) (max1 max2 : Int) (h1 : 0 ≤ max1)
    (h1' : max1 ≤ map.lastIndex) (h2 : 0 ≤ max2) (h2' : max2 ≤ map.lastIndex) (h12 : max1 - 1 ≤ max2) (r0 r1 : Fin n → ℂ) :
    ∃ s, (List.range (max1 + 1).toNat).foldlM (diagIlStep M map max1 max2) ⟨r0, r1, 0, 0, 0, 0, 0, 0⟩ = .ok s ∧
      DiagHalf A u F d map.data r0 r1 (max1.toNat + 1) (border map.data max2.toNat) s := by
  obtain ⟨p, rfl⟩ := Int.eq_ofNat_of_zero_le h1
  have nil : ∀ (y x : Fin n → ℂ), Summed u (F 0 - F 0 + d * 0) 0 0 y x 0 0 := by
    intro y x
    unfold Summed dotOn normOn
    simp
  have start : DiagHalf A u F d map.data r0 r1 0 (edge map.data (0 - 1)) ⟨r0, r1, 0, 0, 0, 0, 0, 0⟩ :=
    ⟨rfl, rfl, ⟨fun i _ h => absurd h (Nat.not_lt_zero _), fun i _ => rfl⟩, ⟨fun i _ h => absurd h (Nat.not_lt_zero _), fun i _ => rfl⟩, nil _ _, nil _ _, nil _ _, nil _ _⟩
  obtain ⟨s, es, hs⟩ := foldlM_inv (diagIlStep M map p max2) (fun t s => DiagHalf A u F d map.data r0 r1 t (edge map.data (t - 1)) s) p 0 (by
    intro t s _ ht hs
    exact diagIl_one hu hF hR hM hS (q := max2) h1' (by omega : t ≤ p) hs (e1 := edge map.data t)
      (by unfold end1For; rw [if_neg (by omega), hs.at0]) (edge_mono hS.mono (by omega))
      (Nat.le_trans (edge_mono hS.mono (Nat.le_add_right t 1)) (hS.le _))) ⟨r0, r1, 0, 0, 0, 0, 0, 0⟩ start
  rw [Nat.zero_add] at hs
  rw [← List.range_eq_range'] at es
  rw [show ((p : Int) + 1).toNat = p + 1 by omega, List.range_succ, List.foldlM_append, es, Res.bind_ok]
  simp only [List.foldlM_cons, List.foldlM_nil]
  have hle : edge map.data (p - 1) ≤ border map.data max2.toNat := by
    have : edge map.data (p - 1) ≤ edge map.data (max2.toNat + 1) := edge_mono hS.mono (by omega)
    exact this
  obtain ⟨s', e, hs'⟩ := diagIl_one hu hF hR hM hS (q := max2) h1' (le_refl p) hs (e1 := border map.data max2.toNat)
    (by unfold end1For; rw [if_pos rfl, SliceMap.at_eq h2 h2']) hle (hS.le _)
  rw [e, Res.bind_ok]
  exact ⟨s', rfl, by rw [Int.toNat_natCast]; exact hs'⟩

/-! ## Scalar products of the run -/

/-- `m` is the scalar product up to rounding. -/
def DotNear (δ : ℝ) (y x : Fin n → ℂ) (m : ℂ) : Prop := ‖m - Kpm.inner y x‖ ≤ δ * (nrm y * nrm x)

theorem normOn_le (a b : Nat) (y x : Fin n → ℂ) : normOn a b y x ≤ nrm y * nrm x := by
  have h := norm_inner_le (fun i => ((‖y i‖ : ℝ) : ℂ)) fun i => ((‖x i‖ : ℝ) : ℂ)
  have en : ∀ z : Fin n → ℂ, nrm (fun i => ((‖z i‖ : ℝ) : ℂ)) ≤ nrm z := fun z => nrm_mono fun i => by
    rw [Complex.norm_real, Real.norm_eq_abs, abs_of_nonneg (norm_nonneg _)]
  have e : Kpm.inner (fun i => ((‖y i‖ : ℝ) : ℂ)) (fun i => ((‖x i‖ : ℝ) : ℂ)) = ((∑ i, ‖y i‖ * ‖x i‖ : ℝ) : ℂ) := by
    unfold Kpm.inner
    push_cast
    refine Finset.sum_congr rfl fun i _ => ?_
    simp
  rw [e, Complex.norm_real, Real.norm_eq_abs] at h
  have h1 : normOn a b y x ≤ ∑ i, ‖y i‖ * ‖x i‖ := by
    unfold normOn
    refine Finset.sum_le_sum fun i _ => ?_
    split
    · exact le_refl _
    · positivity
  refine h1.trans ((le_abs_self _).trans (h.trans ?_))
  exact mul_le_mul (en y) (en x) (nrm_nonneg _) (nrm_nonneg _)

theorem Summed.dotNear (hu : 0 ≤ u) {k K b : Nat} (hk : k ≤ K) {y x y' x' : Fin n → ℂ} {m : ℂ} (h : Summed u k 0 b y x 0 m) (hy : Agree b y y') (hx : Agree b x x')
    (hz : ∀ i : Fin n, b ≤ i.val → x' i = 0) : DotNear ((1 + u) ^ K - 1) y' x' m := by
  have h' : Summed u K 0 b y' x' 0 m := (h.mono hu hk).congr (fun i _ hi => (hy i hi).symm) fun i _ hi => (hx i hi).symm
  unfold Summed at h'
  rw [dotOn_full (fun _ _ => rfl) (fun _ _ => rfl) hz, norm_zero, zero_add, zero_add] at h'
  exact h'.trans (mul_le_mul_of_nonneg_left (normOn_le ..) (pow_sub_nonneg hu _))

/-- What the collector stores as moment `j`, `w` being the vectors of the run. -/
def MomentOf (R : Rounding) (δ : ℝ) (m0 m1 : ℂ) (w : Nat → Fin n → ℂ) (j : Nat) (v : ℂ) : Prop :=
  if j = 0 then v = m0
  else if j = 1 then v = m1
  else if j % 2 = 0 then ∃ m2, DotNear δ (w (j / 2)) (w (j / 2)) m2 ∧ v = R.mul 2 (R.sub m2 m0)
  else ∃ m3, DotNear δ (w (j / 2 + 1)) (w (j / 2)) m3 ∧ v = R.sub (R.mul 2 m3) m1

theorem MomentOf.congr {R : Rounding} {δ : ℝ} {m0 m1 : ℂ} {w w' : Nat → Fin n → ℂ} {j : Nat} {v : ℂ} (h : MomentOf R δ m0 m1 w j v) (h1 : w' (j / 2) = w (j / 2))
    (h2 : w' (j / 2 + 1) = w (j / 2 + 1)) : MomentOf R δ m0 m1 w' j v := by
  unfold MomentOf at *
  rw [h1, h2]
  exact h

/-! ## The outer loops -/

/-- The collector holds the moments below `2 (k - 1)`. -/
structure Collected (R : Rounding) (δ : ℝ) (m0 m1 : ℂ) (num : Nat) (w : Nat → Fin n → ℂ) (k : Nat) (c : DiagCol ℂ) : Prop where
  fst : c.m0 = m0
  snd : c.m1 = m1
  len : c.moments.length = num
  done : ∀ j (hj : j < c.moments.length), j < 2 * (k - 1) → MomentOf R δ m0 m1 w j c.moments[j]

theorem Collected.collect {R : Rounding} {δ : ℝ} {m0 m1 : ℂ} {num : Nat} {w w' : Nat → Fin n → ℂ} {k : Nat} {c : DiagCol ℂ} (h : Collected R δ m0 m1 num w k c)
    (hk2 : 2 ≤ k) (hk : 2 * k ≤ num) (hw : ∀ j, j < k → w' j = w j) {m2 m3 : ℂ} (h2 : DotNear δ (w' (k - 1)) (w' (k - 1)) m2) (h3 : DotNear δ (w' k) (w' (k - 1)) m3) :
    ∃ c', diagCollect R c k m2 m3 = .ok c' ∧ Collected R δ m0 m1 num w' (k + 1) c' := by
  have hl := h.len
  unfold diagCollect
  rw [wr_set _ (by omega), Res.bind_ok, wr_set _ (by rw [List.length_set]; omega), Res.bind_ok]
  refine ⟨_, rfl, h.fst, h.snd, by simp [hl], fun j hj hjk => ?_⟩
  simp only [List.length_set] at hj
  simp only [List.getElem_set]
  by_cases e1 : 2 * (k - 1) + 1 = j
  · rw [if_pos e1]
    unfold MomentOf
    rw [if_neg (by omega), if_neg (by omega), if_neg (by omega), show j / 2 = k - 1 by omega, show k - 1 + 1 = k by omega]
    exact ⟨m3, h3, by rw [h.snd]⟩
  · rw [if_neg e1]
    by_cases e2 : 2 * (k - 1) = j
    · rw [if_pos e2]
      unfold MomentOf
      rw [if_neg (by omega), if_neg (by omega), if_pos (by omega), show j / 2 = k - 1 by omega]
      exact ⟨m2, h2, by rw [h.fst]⟩
    · rw [if_neg e2]
      exact (h.done j hj (by omega)).congr (hw _ (by omega)) (hw _ (by omega))

/-- The rows that are computed for moment `k` are needed, and those left out are zero. -/
structure Enough (num : Nat) (sz c : Nat → Nat) (z : Nat → Fin n → Prop) : Prop where
  size : ∀ k, 2 ≤ k → 2 * k ≤ num → sz k ≤ c k
  zero : ∀ k, 2 ≤ k → 2 * k ≤ num → ∀ i : Fin n, sz k ≤ i.val → z (k - 1) i

theorem diagLoop_rows {R : Rounding} (hu : 0 ≤ u) (hF : Monotone F) (hR : A.Local B) (hM : DiagFollows A u F d M) {opt : Bool} {r r1 : Fin n → ℂ} {num K : Nat}
    {sz c : Nat → Nat} {z : Nat → Fin n → Prop} (P : RowPlan B num sz c z) (hE : Enough num sz c z) (hsz : ∀ k, k < num → sizeFor n map opt k num = .ok (sz k))
    (hK : F n + d ≤ K) {m0 m1 : ℂ} {w : Nat → Fin n → ℂ} {col : DiagCol ℂ} (hc : Collected R ((1 + u) ^ K - 1) m0 m1 num w 2 col) (hh : A.Held r c z 2 r r1 w)
    (h2 : 2 ≤ num) (heven : num % 2 = 0) :
    ∃ w' col', diagLoop R M map opt col r r1 = .ok col' ∧ A.Run r (num / 2 + 1) w' ∧ Collected R ((1 + u) ^ K - 1) m0 m1 num w' (num / 2 + 1) col' ∧ w' 1 = w 1 := by
  unfold diagLoop
  simp only
  rw [hc.len]
  obtain ⟨s, e, w', hc', hh', hw'⟩ := foldlM_inv (diagStep R M map opt num)
    (fun k s => ∃ w', Collected R ((1 + u) ^ K - 1) m0 m1 num w' k s.col ∧ A.Held r c z k s.r0 s.r1 w' ∧ w' 1 = w 1) (num / 2 - 1) 2 (by
    rintro k s hk2 hk ⟨w, hc, hh, hw1⟩
    have hkn : k < num := by omega
    have hk' : 2 * k ≤ num := by omega
    obtain ⟨o, eo, hm, s2, s3⟩ := hM.diag 0 (sz k) s.r1 s.r0 0 0 (Nat.zero_le _) (P.le k hk2 hkn)
    obtain ⟨w', hw, ha, hh'⟩ := hR.held_step P hk2 hkn hh hm
    have hFn := hF (P.le k hk2 hkn)
    have hsc := hE.size k hk2 hk'
    have hcc := P.anti k hk2 hkn
    have hx : Agree (sz k) s.r1 (w' (k - 1)) := fun i hi => by rw [hw _ (by omega)]; exact hh.newer i (by omega)
    have hz : ∀ i : Fin n, sz k ≤ i.val → w' (k - 1) i = 0 := fun i hi => by
      rw [hw _ (by omega)]
      exact hh.zero _ (by omega) i (hE.zero k hk2 hk' i hi)
    obtain ⟨c', ec, hc'⟩ := hc.collect (R := R) hk2 hk' hw (s2.dotNear hu (K := K) (by omega) hx hx hz)
      (s3.dotNear hu (K := K) (by omega) (fun i hi => ha i (by omega)) hx hz)
    refine ⟨⟨c', s.r1, o.y⟩, ?_, w', hc', hh', (hw 1 (by omega)).trans hw1⟩
    unfold diagStep
    rw [hsz k hkn, Res.bind_ok, eo, Res.bind_ok, ec, Res.bind_ok]
    rfl) ⟨col, r, r1⟩ ⟨w, hc, hh, rfl⟩
  rw [show 2 + (num / 2 - 1) = num / 2 + 1 by omega] at hc' hh'
  refine ⟨w', s.col, ?_, hh'.run, hc', hw'⟩
  rw [e, Res.bind_ok]
  rfl

theorem diagPairLoop_rows {R : Rounding} (hu : 0 ≤ u) (hF : Monotone F) (hR : A.Local B) (hM : DiagFollows A u F d M) (hS : Slices map.data B) {opt : Bool}
    {r r1 : Fin n → ℂ} {num K : Nat} {c : Nat → Nat} {z : Nat → Fin n → Prop} (P : RowPlan B num (fun k => rowsFor map opt k num) c z)
    (hE : Enough num (fun k => rowsFor map opt k num) c z)
    (hK : F n + d * map.data.length ≤ K) {m0 m1 : ℂ} {w : Nat → Fin n → ℂ} {col : DiagCol ℂ} (hc : Collected R ((1 + u) ^ K - 1) m0 m1 num w 2 col)
    (hh : A.Held r c z 2 r r1 w) (h4 : num % 4 = 2) :
    ∃ w' col', diagPairLoop R M map opt col r r1 = .ok col' ∧ A.Run r (num / 2 + 1) w' ∧ Collected R ((1 + u) ^ K - 1) m0 m1 num w' (num / 2 + 1) col' ∧ w' 1 = w 1 := by
  unfold diagPairLoop
  simp only
  rw [hc.len]
  have loop : ∀ m k s, 2 * (k + 2 * m) ≤ num + 2 → 2 ≤ k → (∃ w', Collected R ((1 + u) ^ K - 1) m0 m1 num w' k s.col ∧ A.Held r c z k s.r0 s.r1 w' ∧ w' 1 = w 1) →
      ∃ s', (List.range' k m 2).foldlM (diagPairStep R M map opt num) s = .ok s' ∧
        ∃ w', Collected R ((1 + u) ^ K - 1) m0 m1 num w' (k + 2 * m) s'.col ∧ A.Held r c z (k + 2 * m) s'.r0 s'.r1 w' ∧ w' 1 = w 1 := by
    intro m
    induction m with
    | zero => intro k s _ _ h; exact ⟨s, rfl, h⟩
    | succ m ih =>
      rintro k s hk hk2 ⟨w, hc, hh, hw⟩
      have hkn : k < num := by omega
      have hkn1 : k + 1 < num := by omega
      have hk' : 2 * k ≤ num := by omega
      have hk1 : 2 * (k + 1) ≤ num := by omega
      have q1 := ilMax_range (m := map) hS.nonempty (opt := opt) hkn
      have q2 := ilMax_range (m := map) hS.nonempty (opt := opt) hkn1
      obtain ⟨t, et, ht⟩ := diagIl_eq hu hF hR hM hS _ _ q1.1 q1.2 q2.1 q2.2 ilMax_step s.r0 s.r1
      have hb1 : edge map.data ((ilMax map opt k num).toNat + 1) = rowsFor map opt k num := rfl
      have hb2 : border map.data (ilMax map opt (k + 1) num).toNat = rowsFor map opt (k + 1) num := rfl
      rw [hb2] at ht
      have t1 := ht.first
      have t2 := ht.sum2
      have t3 := ht.sum3
      have t4 := ht.sum4
      have t5 := ht.sum5
      rw [hb1] at t1 t2 t3
      have hlen : (ilMax map opt k num).toNat + 1 ≤ map.data.length := by
        have := q1.2
        have := q1.1
        have : 0 < map.data.length := List.length_pos_of_ne_nil hS.nonempty
        unfold SliceMap.lastIndex at *
        omega
      have hd := Nat.mul_le_mul_left d hlen
      have hF1 := hF (P.le k hk2 hkn)
      have hF2 := hF (P.le (k + 1) (by omega) hkn1)
      obtain ⟨w1, hw1, ha1, hh1⟩ := hR.held_step P hk2 hkn hh t1
      obtain ⟨w2, hw2, ha2, hh2⟩ := hR.held_step P (by omega) hkn1 hh1 ht.second
      have s1 := hE.size k hk2 hk'
      have s2 := hE.size (k + 1) (by omega) hk1
      have c1 := P.anti k hk2 hkn
      have c2 := P.anti (k + 1) (by omega) hkn1
      rw [Nat.add_sub_cancel] at c2
      have hx1 : Agree (rowsFor map opt k num) s.r1 (w1 (k - 1)) := fun i hi => by rw [hw1 _ (by omega)]; exact hh.newer i (by omega)
      have hz1 : ∀ i : Fin n, rowsFor map opt k num ≤ i.val → w1 (k - 1) i = 0 := fun i hi => by
        rw [hw1 _ (by omega)]
        exact hh.zero _ (by omega) i (hE.zero k hk2 hk' i hi)
      obtain ⟨c1', ec1, hc1⟩ := hc.collect (R := R) hk2 hk' hw1 (t2.dotNear hu (K := K) (by omega) hx1 hx1 hz1)
        (t3.dotNear hu (K := K) (by omega) (fun i hi => ha1 i (by omega)) hx1 hz1)
      have hx2 : Agree (rowsFor map opt (k + 1) num) t.r0 (w2 (k + 1 - 1)) := fun i hi => by
        rw [hw2 _ (by omega), Nat.add_sub_cancel]; exact ha1 i (by omega)
      have hz2 : ∀ i : Fin n, rowsFor map opt (k + 1) num ≤ i.val → w2 (k + 1 - 1) i = 0 := fun i hi => by
        rw [hw2 _ (by omega)]
        exact hh1.zero _ (by omega) i (hE.zero (k + 1) (by omega) hk1 i hi)
      obtain ⟨c2', ec2, hc2⟩ := hc1.collect (R := R) (by omega) hk1 hw2 (t4.dotNear hu (K := K) (by omega) hx2 hx2 hz2)
        (t5.dotNear hu (K := K) (by omega) (fun i hi => ha2 i (by omega)) hx2 hz2)
      obtain ⟨s', e', i'⟩ := ih (k + 2) ⟨c2', t.r0, t.r1⟩ (by omega) (by omega) ⟨w2, hc2, hh2, ((hw2 1 (by omega)).trans (hw1 1 (by omega))).trans hw⟩
      refine ⟨s', ?_, by rw [show k + 2 * (m + 1) = k + 2 + 2 * m by omega]; exact i'⟩
      rw [List.range'_succ, List.foldlM_cons]
      have : diagPairStep R M map opt num s k = .ok ⟨c2', t.r0, t.r1⟩ := by
        unfold diagPairStep
        simp only [et, Res.bind_ok, ec1, ec2]
        rfl
      rw [this, Res.bind_ok]
      exact e'
  obtain ⟨s, e, w', hc', hh', hw'⟩ := loop (num / 2 / 2) 2 ⟨col, r, r1⟩ (by omega) (le_refl _) ⟨w, hc, hh, rfl⟩
  rw [show 2 + 2 * (num / 2 / 2) = num / 2 + 1 by omega] at hc' hh'
  refine ⟨w', s.col, ?_, hh'.run, hc', hw'⟩
  rw [e, Res.bind_ok]
  rfl

theorem enough_full (num : Nat) : Enough (n := n) num (fun _ => n) (fun _ => n) (fun _ _ => False) :=
  ⟨fun _ _ _ => le_refl _, fun _ _ _ i h => absurd i.isLt (by omega)⟩

theorem enough_opt (hS : Slices map.data B) (hsd : map.src ≤ map.dest) (num : Nat) :
    Enough num (fun k => rowsFor map true k num) (fun k => border map.data (num - 1 - k + map.dest)) (fun k (i : Fin n) => border map.data (k + map.src) ≤ i.val) := by
  constructor
  · intro k _ hk
    refine border_mono hS.mono ?_
    have u := index_upper (m := map) (k := k) (num := num)
    have r := index_range (m := map) hS.nonempty (show k < num by omega)
    simp only [ilMax, if_true]
    omega
  · intro k hk2 hk i hi
    simp only [rowsFor, ilMax, if_true] at hi
    refine Nat.le_trans ?_ hi
    have l := index_lower (m := map) (k := k) (num := num)
    have r := index_range (m := map) hS.nonempty (show k < num by omega)
    by_cases hb : map.data.length - 1 ≤ (map.index k num).toNat
    · rw [border_sat _ hb, hS.last]; exact hS.le _
    · refine border_mono hS.mono ?_
      unfold SliceMap.lastIndex at l
      omega

/-- Every diagonal algorithm gives the moments of a run over all rows. -/
theorem withDiagonal_rows (R : Rounding) (fma : Bool) {ord : Orders n} {e : Nat} (hord : ord.Valid F e) (hR : A.Local B) (hM : DiagFollows A R.unit F (e + 5) M)
    {cfg : AlgorithmConfig} {r : Fin n → ℂ}
    (hS : cfg.optimalSize = true ∨ cfg.interleaved = true → Slices map.data B) (hr : cfg.optimalSize = true → ZeroAbove map.data map.src r ∧ map.src ≤ map.dest)
    {moments : List ℂ} (h2 : 2 ≤ moments.length) (heven : moments.length % 2 = 0) (h4 : cfg.interleaved = true → moments.length % 4 = 2) {K : Nat}
    (hK : F n + (e + 5) * (map.data.length + 1) ≤ K) :
    ∃ w res d0 m1, withDiagonal R fma ord M map cfg moments r = .ok res ∧ res.length = moments.length ∧ A.Run r (moments.length / 2 + 1) w ∧
      DotNear ((1 + R.unit) ^ K - 1) r r d0 ∧ DotNear ((1 + R.unit) ^ K - 1) (w 1) r m1 ∧
      ∀ j (hj : j < res.length), MomentOf R ((1 + R.unit) ^ K - 1) (R.mul d0 (1 / 2)) m1 w j res[j] := by
  have hu := R.unit_nonneg
  have hF := hord.mono
  obtain ⟨r1, er1, hf⟩ := hM.r1 r
  unfold withDiagonal
  rw [er1, Res.bind_ok]
  unfold diagInitial
  set d0 := (ord.sq0 r).value R fma 0 (parts r) (parts r) with hd0
  set m1 := (ord.dot0 r r1).value R fma 0 (fun i => star (ex r1 i)) (ex r) with hm1
  have hKe : F n + e + 5 ≤ K := by
    rw [Nat.mul_succ] at hK
    omega
  have near0 : DotNear ((1 + R.unit) ^ K - 1) r r d0 := by
    obtain ⟨s1, s2⟩ := hord.sq0 r
    have := s1.near (R := R) (fma := fma) (parts r) 0
    rw [Nat.cast_zero, zero_mul, zero_add, norm_zero, Nat.cast_zero, zero_mul, zero_add, show List.range' 0 (2 * n) = List.range' (2 * 0) (2 * (n - 0)) by simp,
      (parts_sum r (le_refl n)).1, (parts_sum r (le_refl n)).2] at this
    refine Summed.dotNear hu (k := (ord.sq0 r).depth + 5) (b := n) (by omega) (y := r) (x := r) ?_ (fun _ _ => rfl) (fun _ _ => rfl) fun i hi => absurd i.isLt (by omega)
    unfold Summed
    rw [zero_add, norm_zero, zero_add]
    exact this
  have near1 : DotNear ((1 + R.unit) ^ K - 1) r1 r m1 := by
    obtain ⟨s1, s2⟩ := hord.dot0 r r1
    have := s1.near (R := R) (fma := fma) (ex r) 0
    rw [Nat.cast_zero, zero_mul, zero_add, norm_zero, Nat.cast_zero, zero_mul, zero_add, show List.range' 0 n = List.range' 0 (n - 0) by simp,
      (dot_sum r r1 (le_refl n)).1, (dot_sum r r1 (le_refl n)).2] at this
    refine Summed.dotNear hu (k := (ord.dot0 r r1).depth + 5) (b := n) (by omega) (y := r1) (x := r) ?_ (fun _ _ => rfl) (fun _ _ => rfl) fun i hi => absurd i.isLt (by omega)
    unfold Summed
    rw [zero_add, norm_zero, zero_add]
    exact this
  simp only
  rw [wr_set _ (by omega), Res.bind_ok, wr_set _ (by rw [List.length_set]; omega), Res.bind_ok]
  simp only [Res.pure_eq, Res.bind_ok]
  let w0 : Nat → Fin n → ℂ := fun k => if k = 0 then r else r1
  have hrun : A.Run r 2 w0 := ⟨rfl, hf, fun k hk => absurd hk (by omega)⟩
  have hc : Collected R ((1 + R.unit) ^ K - 1) (R.mul d0 (1 / 2)) m1 moments.length w0 2
      ⟨(moments.set 0 (R.mul d0 (1 / 2))).set 1 m1, R.mul d0 (1 / 2), m1⟩ := by
    refine ⟨rfl, rfl, by simp, fun j hj hj2 => ?_⟩
    simp only [List.length_set] at hj
    simp only [List.getElem_set]
    obtain rfl | rfl : j = 0 ∨ j = 1 := by omega
    · unfold MomentOf; simp
    · unfold MomentOf; simp
  have fin : ∀ {res : Res (DiagCol ℂ)}, (∃ w col', res = .ok col' ∧ A.Run r (moments.length / 2 + 1) w ∧
      Collected R ((1 + R.unit) ^ K - 1) (R.mul d0 (1 / 2)) m1 moments.length w (moments.length / 2 + 1) col' ∧ w 1 = r1) →
      ∃ w res' d0 m1, (res >>= fun c => Res.ok c.moments) = .ok res' ∧ res'.length = moments.length ∧ A.Run r (moments.length / 2 + 1) w ∧
        DotNear ((1 + R.unit) ^ K - 1) r r d0 ∧ DotNear ((1 + R.unit) ^ K - 1) (w 1) r m1 ∧
        ∀ j (hj : j < res'.length), MomentOf R ((1 + R.unit) ^ K - 1) (R.mul d0 (1 / 2)) m1 w j res'[j] := by
    rintro _ ⟨w, col', rfl, h1, h2, h3⟩
    refine ⟨w, col'.moments, d0, m1, rfl, h2.len, h1, near0, by rw [h3]; exact near1, fun j hj => h2.done j hj ?_⟩
    have := h2.len
    omega
  have hK1 : F n + (e + 5) ≤ K := by omega
  have hK2 : F n + (e + 5) * map.data.length ≤ K := by
    rw [Nat.mul_succ] at hK
    omega
  rcases ho : cfg.optimalSize with _ | _
  · have held : A.Held r (fun _ => n) (fun _ _ => False) 2 r r1 w0 := ⟨hrun, fun _ _ _ h => h.elim, fun _ _ => rfl, fun _ _ => rfl⟩
    rcases hi : cfg.interleaved with _ | _
    · simp only [Bool.false_eq_true, if_false]
      exact fin (diagLoop_rows hu hF hR hM (rowPlan_full B _) (enough_full _) (fun k _ => rfl) hK1 hc held h2 heven)
    · have S := hS (Or.inr hi)
      simp only [if_true]
      have e1 : (fun k => rowsFor map false k moments.length) = fun _ => n := by
        funext k
        unfold rowsFor ilMax SliceMap.lastIndex
        simp only [Bool.false_eq_true, if_false]
        rw [show ((map.data.length : Int) - 1).toNat = map.data.length - 1 by omega, S.last]
      exact fin (diagPairLoop_rows hu hF hR hM S (opt := false) (by rw [e1]; exact rowPlan_full B _) (by rw [e1]; exact enough_full _) hK2 hc held (h4 hi))
  · have S := hS (Or.inl ho)
    obtain ⟨hz, hsd⟩ := hr ho
    have held : A.Held r (fun k => border map.data (moments.length - 1 - k + map.dest)) (fun k i => border map.data (k + map.src) ≤ i.val) 2 r r1 w0 := by
      refine ⟨hrun, ?_, fun _ _ => rfl, fun _ _ => rfl⟩
      intro j hj i hi
      obtain rfl | rfl : j = 0 ∨ j = 1 := by omega
      · rw [Nat.zero_add] at hi
        exact hz i hi
      · refine hR.zeroFirst i r r1 (fun j hj => hz j ?_) hf
        exact (rowPlan_opt S 0 (map := map)).spread 0 i j hi hj |>.trans' (by rw [Nat.zero_add])
    rcases hi : cfg.interleaved with _ | _
    · simp only [Bool.false_eq_true, if_false]
      exact fin (diagLoop_rows hu hF hR hM (rowPlan_opt S _) (enough_opt S hsd _) (fun k hk => sizeFor_eq (fun _ => S.nonempty) S.last hk) hK1 hc held h2 heven)
    · simp only [if_true]
      exact fin (diagPairLoop_rows hu hF hR hM S (rowPlan_opt S _) (enough_opt S hsd _) hK2 hc held (h4 hi))

end Verif.Kpm.Float
