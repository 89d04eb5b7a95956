import Verif.Kpm.Interleave

/-!
# The moments that the algorithms compute
-/

namespace Verif.Kpm

open Verif.Numeric

variable {K V α : Type} {n : Nat}

/-! ## Which rows of the vectors are correct -/

/-- What the sizes of the products must satisfy.  For moment `k`: `sz k` rows are computed, and the rows
below `c k` of the result are exact. -/
structure Plan [CommRing K] [AddCommGroup V] (A : Matrix (Fin n) (Fin n) K) (e : Nat → Fin n → V) (num : Nat)
    (sz c : Nat → Nat) : Prop where
  le : ∀ k, 2 ≤ k → k < num → sz k ≤ n
  anti : ∀ k, 2 ≤ k → k < num → c k ≤ c (k - 1)
  near : ∀ k, 2 ≤ k → k < num → ∀ i j : Fin n, i.val < c k → i.val < sz k → A i j ≠ 0 → j.val < c (k - 1)
  zero : ∀ k, 2 ≤ k → k < num → ∀ i : Fin n, i.val < c k → sz k ≤ i.val → e k i = 0 ∧ e (k - 2) i = 0

/-- Two vectors agree below a row. -/
def Agree (c : Nat) (x y : Fin n → V) : Prop := ∀ i : Fin n, i.val < c → x i = y i

section

variable [CommRing K] [CommRing V] [Module K V]

theorem step_agree {H A : Matrix (Fin n) (Fin n) K} (hA : A = (2 : K) • H) {r : Fin n → V} {num : Nat}
    {sz c : Nat → Nat} (P : Plan A (chebVec H r) num sz c) {k : Nat} (h2 : 2 ≤ k) (hk : k < num)
    {r0 r1 : Fin n → V} (h0 : Agree (c (k - 1)) r0 (chebVec H r (k - 2))) (h1 : Agree (c (k - 1)) r1 (chebVec H r (k - 1))) :
    Agree (c k) (mulSub A 0 (sz k) r1 r0) (chebVec H r k) := by
  intro i hi
  have ha := P.anti k h2 hk
  by_cases hs : i.val < sz k
  · rw [mulSub_lt hs, h0 i (by omega)]
    have : chebVec H r k = act A (chebVec H r (k - 1)) - chebVec H r (k - 2) := by
      have := chebVec_add_two H r (k - 2)
      rw [show k - 2 + 2 = k by omega, show k - 2 + 1 = k - 1 by omega, ← hA] at this
      exact this
    rw [this, Pi.sub_apply]
    congr 1
    refine Finset.sum_congr rfl fun j _ => ?_
    by_cases hz : A i j = 0
    · rw [hz, zero_smul, zero_smul]
    · rw [h1 j (P.near k h2 hk i j hi hs hz)]
  · obtain ⟨z1, z2⟩ := P.zero k h2 hk i hi (by omega)
    rw [mulSub_ge (by omega), h0 i (by omega), z1, z2]

end

/-- Without the size optimisation everything is exact. -/
theorem plan_full [CommRing K] [AddCommGroup V] (A : Matrix (Fin n) (Fin n) K) (e : Nat → Fin n → V) (num : Nat) :
    Plan A e num (fun _ => n) (fun _ => n) := by
  refine ⟨fun _ _ _ => le_refl _, fun _ _ _ => le_refl _, fun _ _ _ _ j _ _ _ => j.isLt, fun _ _ _ i _ h => ?_⟩
  exact absurd h (by have := i.isLt; omega)

/-- The Chebyshev vectors spread by one slice per step. -/
theorem chebVec_zeroAbove [CommRing K] [AddCommGroup V] [Module K V] {H A : Matrix (Fin n) (Fin n) K}
    (hA : A = (2 : K) • H) (half : K) (hhalf : half * 2 = 1) {data : List Nat} (hS : Slices data A) {r : Fin n → V}
    {s : Nat} (hr : ZeroAbove data s r) (k : Nat) : ZeroAbove data (k + s) (chebVec H r k) := by
  have hH : ∀ i j, H i j ≠ 0 → A i j ≠ 0 := by
    intro i j hij h0
    apply hij
    have : half * A i j = H i j := by
      rw [hA, Matrix.smul_apply, smul_eq_mul, ← mul_assoc, hhalf, one_mul]
    rw [← this, h0, mul_zero]
  have hact : ∀ (x : Fin n → V) (t : Nat), ZeroAbove data t x → ∀ B : Matrix (Fin n) (Fin n) K,
      (∀ i j, B i j ≠ 0 → A i j ≠ 0) → ZeroAbove data (t + 1) (act B x) := by
    intro x t hx B hB i hi
    refine Finset.sum_eq_zero fun j _ => ?_
    by_cases hz : B i j = 0
    · rw [hz, zero_smul]
    · by_cases hj : border data t ≤ j.val
      · rw [hx j hj, smul_zero]
      · have := hS.cols i j t (hB i j hz) (by omega)
        omega
  induction k using Nat.twoStepInduction with
  | zero => rw [chebVec_zero, Nat.zero_add]; exact hr
  | one =>
    rw [chebVec_one, Nat.add_comm 1 s]
    exact hact r s hr H hH
  | more k h1 h2 =>
    rw [chebVec_add_two, ← hA]
    intro i hi
    rw [Pi.sub_apply]
    have a := hact _ _ h2 A (fun _ _ h => h) i (by rw [show k + 1 + s + 1 = k + 2 + s by omega]; exact hi)
    have b := h1 i (Nat.le_trans (border_mono hS.mono (by omega)) hi)
    rw [a, b, sub_zero]

/-- With the size optimisation: the rows that the remaining moments depend on are exact. -/
theorem plan_opt [CommRing K] [AddCommGroup V] [Module K V] {H A : Matrix (Fin n) (Fin n) K}
    (hA : A = (2 : K) • H) (half : K) (hhalf : half * 2 = 1) {map : SliceMap} (hS : Slices map.data A) {r : Fin n → V}
    (hr : ZeroAbove map.data map.src r) (num : Nat) :
    Plan A (chebVec H r) num (fun k => rowsFor map true k num) (fun k => border map.data (num - 1 - k + map.dest)) := by
  refine ⟨fun k _ _ => hS.le _, fun k _ _ => border_mono hS.mono (by omega), ?_, ?_⟩
  · intro k h2 hk i j hc hi hz
    have := hS.rows i j _ hz hi
    refine Nat.lt_of_lt_of_le this (border_mono hS.mono ?_)
    have u := index_upper (m := map) (k := k) (num := num)
    have r := index_range (m := map) hS.nonempty hk
    simp only [ilMax, if_true]
    omega
  · intro k h2 hk i hc hi
    have l := index_lower (m := map) (k := k) (num := num)
    have r := index_range (m := map) hS.nonempty hk
    have hle : k + map.src ≤ (map.index k num).toNat := by
      by_contra hcon
      have : (num - 1 - k + map.dest ≤ (map.index k num).toNat) ∨ map.data.length - 1 ≤ (map.index k num).toNat := by
        unfold SliceMap.lastIndex at l
        omega
      rcases this with h | h
      · have := border_mono hS.mono h
        simp only [rowsFor, ilMax, if_true] at hi
        omega
      · simp only [rowsFor, ilMax, if_true] at hi
        rw [border_sat _ h, hS.last] at hi
        have := i.isLt
        omega
    have hz := chebVec_zeroAbove hA half hhalf hS hr
    simp only [rowsFor, ilMax, if_true] at hi
    exact ⟨hz k i (Nat.le_trans (border_mono hS.mono hle) hi),
      hz (k - 2) i (Nat.le_trans (border_mono hS.mono (by omega)) hi)⟩

/-! ## The moments array -/

/-- The first `k` moments are done. -/
def Done (num k : Nat) (mom : Nat → α) (l : List α) : Prop :=
  l.length = num ∧ ∀ j, j < k → l[j]? = some (mom j)

theorem wr_ok {l : List α} {i : Nat} (h : i < l.length) (v : α) : wr l i v = .ok (l.set i v) := by
  unfold wr; rw [if_pos h]

theorem Done.set {num k : Nat} {mom : Nat → α} {l : List α} (h : Done num k mom l) (hk : k < num) {v : α} (hv : v = mom k) :
    ∃ l', wr l k v = .ok l' ∧ Done num (k + 1) mom l' := by
  refine ⟨l.set k v, wr_ok (by rw [h.1]; exact hk) v, by rw [List.length_set]; exact h.1, ?_⟩
  intro j hj
  by_cases e : k = j
  · subst e; rw [List.getElem?_set_self (by rw [h.1]; exact hk), hv]
  · rw [List.getElem?_set_ne e]; exact h.2 j (by omega)

theorem Done.all {num : Nat} {mom : Nat → α} {l : List α} (h : Done num num mom l) : l = (List.range num).map mom := by
  apply List.ext_getElem?
  intro j
  by_cases hj : j < num
  · rw [h.2 j hj, List.getElem?_map, List.getElem?_range hj]; rfl
  · rw [List.getElem?_eq_none (by rw [h.1]; omega), List.getElem?_eq_none (by simp; omega)]

/-- A loop over `start .. start + m` with an invariant. -/
theorem foldlM_inv {S : Type} (f : S → Nat → Res S) (I : Nat → S → Prop) (m start : Nat)
    (h : ∀ k s, start ≤ k → k < start + m → I k s → ∃ s', f s k = .ok s' ∧ I (k + 1) s') (s : S) (h0 : I start s) :
    ∃ s', (List.range' start m).foldlM f s = .ok s' ∧ I (start + m) s' := by
  induction m generalizing start s with
  | zero => exact ⟨s, rfl, h0⟩
  | succ m ih =>
    obtain ⟨s1, e1, i1⟩ := h start s (le_refl _) (by omega) h0
    rw [List.range'_succ]
    simp only [List.foldlM_cons, e1, Res.bind_ok]
    obtain ⟨s2, e2, i2⟩ := ih (start + 1) (fun k s a b => h k s (by omega) (by omega)) s1 i1
    exact ⟨s2, e2, by rw [show start + (m + 1) = start + 1 + m by omega]; exact i2⟩

/-! ## Off-diagonal -/

section off

variable [CommRing K] [CommRing V] [StarRing V] [Module K V] [SMul K α]

theorem offMoment_pos {half : K} {H : Matrix (Fin n) (Fin n) K} {l : (Fin n → V) → α} {r : Fin n → V} {k : Nat}
    (h : k ≠ 0) : offMoment half H l r k = l (chebVec H r k) := by
  unfold offMoment; rw [if_neg h]

theorem offBasic_eq {half : K} {M : Mat n V} {H A : Matrix (Fin n) (Fin n) K} (hM : Implements half M A)
    (hA : A = (2 : K) • H) {map : SliceMap} {opt : Bool} {r : Fin n → V} {num : Nat} {sz c : Nat → Nat}
    (P : Plan A (chebVec H r) num sz c) (hsz : ∀ k, k < num → sizeFor n map opt k num = .ok (sz k))
    {val : (Fin n → V) → Res α} {l : (Fin n → V) → α} (hval : ∀ x, val x = .ok (l x))
    (hl : ∀ k x y, k < num → Agree (c k) x y → l x = l y)
    {ms : List α} (hms : Done num 2 (offMoment half H l r) ms)
    {r1 : Fin n → V} (hr1 : r1 = chebVec H r 1) (h2 : 2 ≤ num) :
    offBasic M map opt val ms r r1 = .ok ((List.range num).map (offMoment half H l r)) := by
  unfold offBasic
  simp only
  rw [hms.1]
  have key := fun hstep => foldlM_inv (offBasicStep M map opt num val)
    (fun k s => Done num k (offMoment half H l r) s.col ∧
      (k < num → Agree (c (k - 1)) s.r0 (chebVec H r (k - 2)) ∧ Agree (c (k - 1)) s.r1 (chebVec H r (k - 1))))
    (num - 2) 2 hstep ⟨ms, r, r1⟩ ⟨hms, fun _ => ⟨fun i _ => by rw [chebVec_zero], fun i _ => by rw [hr1]⟩⟩
  have hfin := key ?_
  · obtain ⟨s, e, i⟩ := hfin
    rw [e, Res.bind_ok]
    have := i.1
    rw [show 2 + (num - 2) = num by omega] at this
    rw [this.all]
    rfl
  · intro k s hk2 hk ⟨hd, hag⟩
    have hkn : k < num := by omega
    obtain ⟨a0, a1⟩ := hag hkn
    have ha := step_agree hA P hk2 hkn a0 a1
    unfold offBasicStep
    rw [hsz k hkn, Res.bind_ok, hM.spmv _ _ _ _ (Nat.zero_le _) (P.le k hk2 hkn), Res.bind_ok]
    unfold offCollect
    rw [hval, Res.bind_ok]
    obtain ⟨l', e1, d1⟩ := hd.set hkn (v := l (mulSub A 0 (sz k) s.r1 s.r0))
      (by rw [offMoment_pos (by omega)]; exact hl k _ _ hkn ha)
    rw [e1, Res.bind_ok]
    refine ⟨_, rfl, d1, fun hk1 => ⟨?_, ?_⟩⟩
    · rw [show k + 1 - 1 = k by omega, show k + 1 - 2 = k - 1 by omega]
      exact fun i hi => a1 i (by have := P.anti k hk2 hkn; omega)
    · exact ha

end off

/-! ## Diagonal -/

section diag

variable [CommRing K] [StarRing K] [CommRing V] [StarRing V] [Algebra K V] [StarModule K V]

omit [CommRing K] [StarRing K] [Algebra K V] [StarModule K V] in
theorem dotOn_full {x y x' y' : Fin n → V} {b : Nat} (hx : Agree b x x') (hy : Agree b y y')
    (hz : ∀ i : Fin n, b ≤ i.val → y' i = 0) : dotOn 0 b x y = inner x' y' := by
  unfold dotOn inner
  refine Finset.sum_congr rfl fun i _ => ?_
  by_cases h : i.val < b
  · rw [if_pos ⟨Nat.zero_le _, h⟩, hx i h, hy i h]
  · rw [if_neg (by omega), hz i (by omega), mul_zero]

omit [StarRing K] [StarModule K V] in
theorem diagMoment_pos {half : K} {H : Matrix (Fin n) (Fin n) K} {r : Fin n → V} {k : Nat}
    (h : k ≠ 0) : diagMoment half H r k = inner r (chebVec H r k) := by
  unfold diagMoment; rw [if_neg h]

theorem diagBasic_eq {half : K} (hhalf : half * 2 = 1) {M : Mat n V} {H A : Matrix (Fin n) (Fin n) K}
    (hM : Implements half M A) (hA : A = (2 : K) • H) (hH : H.IsHermitian) {map : SliceMap} {opt : Bool}
    {r : Fin n → V} {num : Nat} {sz c : Nat → Nat}
    (P : Plan A (chebVec H r) num sz c) (hsz : ∀ k, k < num → sizeFor n map opt k num = .ok (sz k))
    (hc : ∀ k, 2 ≤ k → k ≤ num / 2 → sz k ≤ c k)
    (hz : ∀ k, 2 ≤ k → k ≤ num / 2 → ∀ i : Fin n, sz k ≤ i.val → chebVec H r (k - 1) i = 0)
    {col : DiagCol V} (hms : Done num 2 (diagMoment half H r) col.moments)
    (hm0 : col.m0 = half • inner r r) (hm1 : col.m1 = inner (chebVec H r 1) r)
    {r1 : Fin n → V} (hr1 : r1 = chebVec H r 1) (h2 : 2 ≤ num) (heven : num % 2 = 0) :
    ∃ col', diagBasic M map opt col r r1 = .ok col' ∧ col'.moments = (List.range num).map (diagMoment half H r) := by
  unfold diagBasic
  simp only
  rw [hms.1]
  have key := fun hstep => foldlM_inv (diagBasicStep M map opt num)
    (fun k s => Done num (2 * (k - 1)) (diagMoment half H r) s.col.moments ∧ s.col.m0 = half • inner r r ∧
      s.col.m1 = inner (chebVec H r 1) r ∧
      (k ≤ num / 2 → Agree (c (k - 1)) s.r0 (chebVec H r (k - 2)) ∧ Agree (c (k - 1)) s.r1 (chebVec H r (k - 1))))
    (num / 2 - 1) 2 hstep ⟨col, r, r1⟩
    ⟨hms, hm0, hm1, fun _ => ⟨fun i _ => by rw [chebVec_zero], fun i _ => by rw [hr1]⟩⟩
  have hfin := key ?_
  · obtain ⟨s, e, i⟩ := hfin
    rw [e, Res.bind_ok]
    have := i.1
    rw [show 2 * (2 + (num / 2 - 1) - 1) = num by omega] at this
    exact ⟨_, rfl, this.all⟩
  · intro k s hk2 hk ⟨hd, q0, q1, hag⟩
    have hkh : k ≤ num / 2 := by omega
    have hkn : k < num := by omega
    obtain ⟨a0, a1⟩ := hag hkh
    have ha := step_agree hA P hk2 hkn a0 a1
    have hck := hc k hk2 hkh
    have hcc := P.anti k hk2 hkn
    have hzz := hz k hk2 hkh
    unfold diagBasicStep
    rw [hsz k hkn, Res.bind_ok, hM.diag _ _ _ _ _ _ (Nat.zero_le _) (P.le k hk2 hkn), Res.bind_ok]
    simp only [diagSpec, zero_add]
    have b1 : Agree (sz k) s.r1 (chebVec H r (k - 1)) := fun i hi => a1 i (by omega)
    have b2 : Agree (sz k) (mulSub A 0 (sz k) s.r1 s.r0) (chebVec H r k) := fun i hi => ha i (by omega)
    rw [dotOn_full b1 b1 hzz, dotOn_full b2 b1 hzz]
    unfold DiagCol.collect
    have de := doubling_even H hH r half hhalf (k - 1)
    have do' := doubling_odd H hH r (k - 1)
    rw [show k - 1 + 1 = k by omega] at do'
    obtain ⟨l1, e1, d1⟩ := hd.set (by omega)
      (v := 2 * (inner (chebVec H r (k - 1)) (chebVec H r (k - 1)) - s.col.m0))
      (by rw [diagMoment_pos (by omega), q0, de])
    obtain ⟨l2, e2, d2⟩ := d1.set (by omega)
      (v := 2 * inner (chebVec H r k) (chebVec H r (k - 1)) - s.col.m1)
      (by rw [diagMoment_pos (by omega), q1, do'])
    rw [e1, Res.bind_ok, e2, Res.bind_ok]
    refine ⟨_, rfl, ?_, q0, q1, fun hk1 => ⟨?_, ha⟩⟩
    · rw [show 2 * (k + 1 - 1) = 2 * (k - 1) + 1 + 1 by omega]; exact d2
    · rw [show k + 1 - 1 = k by omega, show k + 1 - 2 = k - 1 by omega]
      exact fun i hi => a1 i (by omega)

end diag

end Verif.Kpm
