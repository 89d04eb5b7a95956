import Verif.Kpm.With

/-!
# Kernels which treat every row by itself, whatever the arithmetic

The off-diagonal algorithms for kernels of any arithmetic, for example floating point: the new element of a row is related to its old element and to the
elements of the other vector in the columns of the row, by any relation which does not look further and keeps zeros.  No law of algebra is used.  The relation
may leave the new element open: a vector instruction may round differently from a scalar one, and which one treats a row depends on where a slice begins.
-/

namespace Verif.Kpm

open Verif.Numeric

variable {K V α S : Type} {n : Nat}

/-- What the kernels do: `step i x v v'`: the element of row `i` may become `v'` if it was `v` and the other vector is `x`; `first r w`: the vector `w` may
follow the starting vector `r`.  `B` has the pattern of the stored matrix. -/
structure RowRule (n : Nat) (V : Type) where
  step : Fin n → (Fin n → V) → V → V → Prop
  first : (Fin n → V) → (Fin n → V) → Prop

/-- The rule looks only at the columns of a row, keeps zeros and always allows something. -/
structure RowRule.Local [Zero K] [Zero V] (R : RowRule n V) (B : Matrix (Fin n) (Fin n) K) : Prop where
  reads : ∀ i x x' v v', (∀ j, B i j ≠ 0 → x j = x' j) → R.step i x v v' → R.step i x' v v'
  zero : ∀ i x v', (∀ j, B i j ≠ 0 → x j = 0) → R.step i x 0 v' → v' = 0
  zeroFirst : ∀ i r w, (∀ j, B i j ≠ 0 → r j = 0) → R.first r w → w i = 0
  total : ∀ i x v, ∃ v', R.step i x v v'

/-- The rows from `a` to `b` of `y` have become those of `y'`. -/
def RowRule.Moved (R : RowRule n V) (a b : Nat) (x y y' : Fin n → V) : Prop :=
  (∀ i : Fin n, a ≤ i.val → i.val < b → R.step i x (y i) (y' i)) ∧ ∀ i : Fin n, ¬(a ≤ i.val ∧ i.val < b) → y' i = y i

/-- The kernels follow the rule. -/
structure RowRule.Follows (R : RowRule n V) (M : Mat n V) : Prop where
  spmv : ∀ start stop x y, start ≤ stop → stop ≤ n → ∃ y', M.spmv start stop x y = .ok y' ∧ R.Moved start stop x y y'
  r1 : ∀ r0, ∃ w, M.r1 r0 = .ok w ∧ R.first r0 w

/-- A sequence of vectors which follows the rule, up to and without number `num`. -/
structure RowRule.Run (R : RowRule n V) (r : Fin n → V) (num : Nat) (w : Nat → Fin n → V) : Prop where
  zero : w 0 = r
  one : R.first r (w 1)
  next : ∀ k, k + 2 < num → ∀ i, R.step i (w (k + 1)) (w k i) (w (k + 2) i)

section interleave

variable [CommRing K] [Zero V] {R : RowRule n V} {M : Mat n V} {B : Matrix (Fin n) (Fin n) K} {map : SliceMap}

/-- The state of the inner loop after `t` iterations. -/
structure RowRule.Half (R : RowRule n V) (data : List Nat) (r0 r1 : Fin n → V) (t : Nat) (s : IlOff n V) : Prop where
  at0 : s.start0 = edge data t
  at1 : s.start1 = edge data (t - 1)
  first : R.Moved 0 (edge data t) r1 r0 s.r0
  second : R.Moved 0 (edge data (t - 1)) s.r0 r1 s.r1

theorem RowRule.Local.second_ext (hR : R.Local B) (hS : Slices map.data B) {t b : Nat} {a a' r1 y : Fin n → V} (hb : b ≤ edge map.data (t - 1))
    (hsame : ∀ i : Fin n, i.val < edge map.data t → a' i = a i) (h : R.Moved 0 b a r1 y) : R.Moved 0 b a' r1 y := by
  refine ⟨fun i h0 h1 => hR.reads i a a' _ _ (fun j hj => ?_) (h.1 i h0 h1), h.2⟩
  refine (hsame j ?_).symm
  cases t with
  | zero =>
    have : edge map.data (0 - 1) = 0 := rfl
    omega
  | succ t =>
    rw [Nat.add_sub_cancel] at hb
    exact edge_rows hS hj (by omega)

theorem rowIl_one (hR : R.Local B) (hM : R.Follows M) (hS : Slices map.data B) {p : Nat} {q : Int} (hp : (p : Int) ≤ map.lastIndex) {r0 r1 : Fin n → V} {t : Nat} {e1 : Nat}
    (ht : t ≤ p) {s : IlOff n V} (hs : R.Half map.data r0 r1 t s) (he : end1For map p q t s.start0 = .ok e1) (hle : edge map.data (t - 1) ≤ e1) (hen : e1 ≤ n) :
    ∃ s', offIlStep M map p q s t = .ok s' ∧ s'.start0 = edge map.data (t + 1) ∧ s'.start1 = edge map.data t ∧
      R.Moved 0 (edge map.data (t + 1)) r1 r0 s'.r0 ∧ R.Moved 0 e1 s'.r0 r1 s'.r1 := by
  have e0 : border map.data ((t : Int)).toNat = edge map.data (t + 1) := by
    rw [Int.toNat_natCast]; rfl
  have hm1 : edge map.data t ≤ edge map.data (t + 1) := edge_mono hS.mono (by omega)
  have hm0 : edge map.data (t - 1) ≤ edge map.data t := edge_mono hS.mono (by omega)
  unfold offIlStep
  rw [SliceMap.at_eq (by omega) (by omega), Res.bind_ok, he, Res.bind_ok, e0, hs.at0, hs.at1]
  obtain ⟨y0, e0', m0⟩ := hM.spmv (edge map.data t) (edge map.data (t + 1)) s.r1 s.r0 hm1 (hS.le _)
  obtain ⟨y1, e1', m1⟩ := hM.spmv (edge map.data (t - 1)) e1 y0 s.r1 hle hen
  rw [e0', Res.bind_ok, e1', Res.bind_ok]
  refine ⟨_, rfl, rfl, rfl, ?_, ?_⟩
  · constructor
    · intro i _ hi
      show R.step i r1 (r0 i) (y0 i)
      by_cases hc : edge map.data t ≤ i.val
      · have := m0.1 i hc hi
        rw [hs.first.2 i (by omega)] at this
        refine hR.reads i _ _ _ _ (fun j hj => hs.second.2 j ?_) this
        intro hlt
        cases t with
        | zero =>
          have : edge map.data (0 - 1) = 0 := rfl
          omega
        | succ t =>
          have := edge_cols hS hj hlt.2
          simp only [Nat.add_sub_cancel] at this
          omega
      · rw [m0.2 i (by omega)]
        exact hs.first.1 i (Nat.zero_le _) (by omega)
    · intro i hi
      show y0 i = r0 i
      rw [m0.2 i (by omega)]
      exact hs.first.2 i (by omega)
  · have same : ∀ i : Fin n, i.val < edge map.data t → y0 i = s.r0 i := fun i hi => m0.2 i (by omega)
    have old := hR.second_ext hS (le_refl _) same hs.second
    constructor
    · intro i _ hi
      show R.step i y0 (r1 i) (y1 i)
      by_cases hc : edge map.data (t - 1) ≤ i.val
      · have := m1.1 i hc hi
        rwa [hs.second.2 i (by omega)] at this
      · rw [m1.2 i (by omega)]
        exact old.1 i (Nat.zero_le _) (by omega)
    · intro i hi
      show y1 i = r1 i
      rw [m1.2 i (by omega)]
      exact hs.second.2 i (by omega)

theorem rowIl_eq (hR : R.Local B) (hM : R.Follows M) (hS : Slices map.data B) (max1 max2 : Int) (h1 : 0 ≤ max1) (h1' : max1 ≤ map.lastIndex) (h2 : 0 ≤ max2)
    (h2' : max2 ≤ map.lastIndex) (h12 : max1 - 1 ≤ max2) (r0 r1 : Fin n → V) :
    ∃ s, (List.range (max1 + 1).toNat).foldlM (offIlStep M map max1 max2) ⟨r0, r1, 0, 0⟩ = .ok s ∧
      R.Moved 0 (border map.data max1.toNat) r1 r0 s.r0 ∧ R.Moved 0 (border map.data max2.toNat) s.r0 r1 s.r1 := by
  obtain ⟨p, rfl⟩ := Int.eq_ofNat_of_zero_le h1
  have start : R.Half map.data r0 r1 0 ⟨r0, r1, 0, 0⟩ :=
    ⟨rfl, rfl, ⟨fun i _ h => absurd h (Nat.not_lt_zero _), fun i _ => rfl⟩, ⟨fun i _ h => absurd h (Nat.not_lt_zero _), fun i _ => rfl⟩⟩
  obtain ⟨s, es, hs⟩ := foldlM_inv (offIlStep M map p max2) (fun t s => R.Half map.data r0 r1 t s) p 0 (by
    intro t s _ ht hs
    obtain ⟨s', e, a0, a1, b0, b1⟩ := rowIl_one hR hM hS (q := max2) h1' (by omega : t ≤ p) hs (e1 := edge map.data t)
      (by unfold end1For; rw [if_neg (by omega), hs.at0]) (edge_mono hS.mono (by omega))
      (Nat.le_trans (edge_mono hS.mono (Nat.le_add_right t 1)) (hS.le _))
    exact ⟨s', e, a0, by rw [a1]; rfl, b0, b1⟩) ⟨r0, r1, 0, 0⟩ start
  rw [Nat.zero_add] at hs
  rw [← List.range_eq_range'] at es
  rw [show ((p : Int) + 1).toNat = p + 1 by omega, List.range_succ, List.foldlM_append, es, Res.bind_ok]
  simp only [List.foldlM_cons, List.foldlM_nil]
  have hle : edge map.data (p - 1) ≤ border map.data max2.toNat := by
    have : edge map.data (p - 1) ≤ edge map.data (max2.toNat + 1) := edge_mono hS.mono (by omega)
    exact this
  obtain ⟨s', e, _, _, b0, b1⟩ := rowIl_one hR hM hS (q := max2) h1' (le_refl p) hs (e1 := border map.data max2.toNat)
    (by unfold end1For; rw [if_pos rfl, SliceMap.at_eq h2 h2']) hle (hS.le _)
  rw [e, Res.bind_ok]
  exact ⟨s', rfl, b0, b1⟩

end interleave

section run

variable [Zero K] [Zero V] {R : RowRule n V} {M : Mat n V} {B : Matrix (Fin n) (Fin n) K} {map : SliceMap}

/-- Moment `k` needs the rows below `c k`, and `sz k` rows are computed.  `z k i`: row `i` of vector `k` is surely zero. -/
structure RowPlan (B : Matrix (Fin n) (Fin n) K) (num : Nat) (sz c : Nat → Nat) (z : Nat → Fin n → Prop) : Prop where
  le : ∀ k, 2 ≤ k → k < num → sz k ≤ n
  anti : ∀ k, 2 ≤ k → k < num → c k ≤ c (k - 1)
  near : ∀ k, 2 ≤ k → k < num → ∀ i j : Fin n, i.val < c k → i.val < sz k → B i j ≠ 0 → j.val < c (k - 1)
  zero : ∀ k, 2 ≤ k → k < num → ∀ i : Fin n, i.val < c k → sz k ≤ i.val → z k i
  keep : ∀ k i, z (k + 2) i → z k i
  spread : ∀ k i j, z (k + 1) i → B i j ≠ 0 → z k j

/-- The vectors held at iteration `k` are those of a run in the rows that matter. -/
structure RowRule.Held (R : RowRule n V) (r : Fin n → V) (c : Nat → Nat) (z : Nat → Fin n → Prop) (k : Nat) (x y : Fin n → V) (w : Nat → Fin n → V) : Prop where
  run : R.Run r k w
  zero : ∀ j, j < k → ∀ i, z j i → w j i = 0
  older : Agree (c (k - 1)) x (w (k - 2))
  newer : Agree (c (k - 1)) y (w (k - 1))

theorem RowRule.Local.held_step (hR : R.Local B) {r : Fin n → V} {num : Nat} {sz c : Nat → Nat} {z : Nat → Fin n → Prop} (P : RowPlan B num sz c z) {k : Nat}
    (h2 : 2 ≤ k) (hk : k < num) {x y y' : Fin n → V} {w : Nat → Fin n → V} (h : R.Held r c z k x y w) (hm : R.Moved 0 (sz k) y x y') :
    ∃ w', (∀ j, j < k → w' j = w j) ∧ Agree (c k) y' (w' k) ∧ R.Held r c z (k + 1) y y' w' := by
  obtain ⟨m, rfl⟩ : ∃ m, k = m + 2 := ⟨k - 2, by omega⟩
  have hc := P.anti _ h2 hk
  have ex : ∀ i : Fin n, ∃ v', R.step i (w (m + 1)) (w m i) v' ∧ (i.val < c (m + 2) → v' = y' i) := by
    intro i
    by_cases hi : i.val < c (m + 2)
    · refine ⟨y' i, ?_, fun _ => rfl⟩
      have hx : x i = w m i := h.older i (by omega)
      by_cases hs : i.val < sz (m + 2)
      · have := hm.1 i (Nat.zero_le _) hs
        rw [hx] at this
        exact hR.reads i _ _ _ _ (fun j hj => h.newer j (P.near _ h2 hk i j hi hs hj)) this
      · have hz := P.zero _ h2 hk i hi (by omega)
        have h0 : w m i = 0 := h.zero m (by omega) i (P.keep m i hz)
        obtain ⟨v', hv⟩ := hR.total i (w (m + 1)) (w m i)
        have : v' = 0 := hR.zero i (w (m + 1)) v' (fun j hj => h.zero (m + 1) (by omega) j (P.spread _ i j hz hj)) (by rwa [h0] at hv)
        rw [hm.2 i (by omega), hx, h0]
        rw [h0, this] at hv
        exact hv
    · obtain ⟨v', hv⟩ := hR.total i (w (m + 1)) (w m i)
      exact ⟨v', hv, fun h => absurd h hi⟩
  choose v hv hv' using ex
  have hlt : ∀ j, j < m + 2 → Function.update w (m + 2) v j = w j := fun j hj => Function.update_of_ne (by omega) _ _
  have hself : Function.update w (m + 2) v (m + 2) = v := Function.update_self ..
  refine ⟨Function.update w (m + 2) v, hlt, fun i hi => by rw [hself]; exact (hv' i hi).symm, ⟨⟨?_, ?_, ?_⟩, ?_, ?_, ?_⟩⟩
  · rw [hlt 0 (by omega)]; exact h.run.zero
  · rw [hlt 1 (by omega)]; exact h.run.one
  · intro j hj i
    by_cases hjm : j = m
    · subst hjm
      rw [hself, hlt _ (by omega), hlt _ (by omega)]
      exact hv i
    · rw [hlt _ (by omega), hlt _ (by omega), hlt _ (by omega)]
      exact h.run.next j (by omega) i
  · intro j hj i hz
    by_cases hjm : j = m + 2
    · subst hjm
      rw [hself]
      have h0 : w m i = 0 := h.zero m (by omega) i (P.keep m i hz)
      have := hv i
      rw [h0] at this
      exact hR.zero i (w (m + 1)) _ (fun j hj => h.zero (m + 1) (by omega) j (P.spread _ i j hz hj)) this
    · rw [hlt _ (by omega)]
      exact h.zero j (by omega) i hz
  · intro i hi
    show y i = Function.update w (m + 2) v (m + 1) i
    rw [hlt _ (by omega)]
    exact h.newer i (Nat.lt_of_lt_of_le hi hc)
  · intro i hi
    show y' i = Function.update w (m + 2) v (m + 2) i
    rw [hself]
    exact (hv' i hi).symm

/-- Nothing is known to be zero and everything is computed. -/
theorem rowPlan_full (B : Matrix (Fin n) (Fin n) K) (num : Nat) : RowPlan B num (fun _ => n) (fun _ => n) (fun _ _ => False) :=
  ⟨fun _ _ _ => le_refl _, fun _ _ _ => le_refl _, fun _ _ _ _ j _ _ _ => j.isLt, fun _ _ _ i _ h => absurd i.isLt (by omega), fun _ _ h => h,
    fun _ _ _ h _ => h⟩

end run

section off

variable [CommRing K] [SMul S α] [Zero V] {R : RowRule n V} {M : Mat n V} {B : Matrix (Fin n) (Fin n) K} {map : SliceMap}

theorem rowPlan_opt (hS : Slices map.data B) (num : Nat) :
    RowPlan B num (fun k => rowsFor map true k num) (fun k => border map.data (num - 1 - k + map.dest)) (fun k i => border map.data (k + map.src) ≤ i.val) := by
  refine ⟨fun k _ _ => hS.le _, fun k _ _ => border_mono hS.mono (by omega), ?_, ?_, ?_, ?_⟩
  · intro k h2 hk i j hc hi hz
    have := hS.rows i j _ hz hi
    refine Nat.lt_of_lt_of_le this (border_mono hS.mono ?_)
    have u := index_upper (m := map) (k := k) (num := num)
    have r := index_range (m := map) hS.nonempty hk
    simp only [ilMax, if_true]
    omega
  · intro k h2 hk i hc hi
    have l := index_lower (m := map) (k := k) (num := num)
    have r := index_range (m := map) hS.nonempty hk
    have hle : k + map.src ≤ (map.index k num).toNat := by
      by_contra hcon
      have : (num - 1 - k + map.dest ≤ (map.index k num).toNat) ∨ map.data.length - 1 ≤ (map.index k num).toNat := by
        unfold SliceMap.lastIndex at l
        omega
      rcases this with h | h
      · have := border_mono hS.mono h
        simp only [rowsFor, ilMax, if_true] at hi
        omega
      · simp only [rowsFor, ilMax, if_true] at hi
        rw [border_sat _ h, hS.last] at hi
        have := i.isLt
        omega
    simp only [rowsFor, ilMax, if_true] at hi
    exact Nat.le_trans (border_mono hS.mono hle) hi
  · intro k i h
    exact Nat.le_trans (border_mono hS.mono (by omega)) h
  · intro k i j h hj
    by_contra hc
    have := hS.cols i j _ hj (Nat.lt_of_not_le hc)
    rw [show k + map.src + 1 = k + 1 + map.src by omega] at this
    omega

/-- The moments of a run: the zeroth is halved. -/
def runMoment (half : S) (l : (Fin n → V) → α) (w : Nat → Fin n → V) (k : Nat) : α := if k = 0 then half • l (w 0) else l (w k)

omit [CommRing K] [Zero V] in
theorem runMoment_congr {half : S} {l : (Fin n → V) → α} {w w' : Nat → Fin n → V} {k : Nat} (h : w k = w' k) : runMoment half l w k = runMoment half l w' k := by
  unfold runMoment
  split
  · rename_i hk; subst hk; rw [h]
  · rw [h]

omit [CommRing K] [Zero V] in
theorem runMoment_pos {half : S} {l : (Fin n → V) → α} {w : Nat → Fin n → V} {k : Nat} (h : k ≠ 0) : runMoment half l w k = l (w k) := by
  unfold runMoment; rw [if_neg h]

theorem Done.congr {num k : Nat} {f g : Nat → α} {l : List α} (h : Done num k f l) (hfg : ∀ j, j < k → f j = g j) : Done num k g l :=
  ⟨h.1, fun j hj => by rw [h.2 j hj, hfg j hj]⟩

/-- What holds between two iterations of the outer loops. -/
def RowRule.Inv (R : RowRule n V) (half : S) (l : (Fin n → V) → α) (r : Fin n → V) (num : Nat) (c : Nat → Nat) (z : Nat → Fin n → Prop) (k : Nat)
    (s : St n V (List α)) : Prop :=
  ∃ w, Done num k (runMoment half l w) s.col ∧ R.Held r c z k s.r0 s.r1 w

theorem inv_collect {half : S} {val : (Fin n → V) → Res α} {l : (Fin n → V) → α} {num : Nat} {c : Nat → Nat} (hval : ∀ x, val x = .ok (l x))
    (hl : ∀ k x y, k < num → Agree (c k) x y → l x = l y) {k : Nat} (h2 : 2 ≤ k) (hk : k < num) {w w' : Nat → Fin n → V} {col : List α}
    (hd : Done num k (runMoment half l w) col) (hw : ∀ j, j < k → w' j = w j) {y : Fin n → V} (ha : Agree (c k) y (w' k)) :
    ∃ col', offCollect val col k y = .ok col' ∧ Done num (k + 1) (runMoment half l w') col' := by
  unfold offCollect
  rw [hval, Res.bind_ok]
  exact (hd.congr fun j hj => runMoment_congr (hw j hj).symm).set hk (v := l y) (by rw [runMoment_pos (by omega)]; exact hl k _ _ hk ha)

theorem rowBasic_eq {half : S} (hR : R.Local B) (hM : R.Follows M) {opt : Bool} {r r1 : Fin n → V} {num : Nat} {sz c : Nat → Nat} {z : Nat → Fin n → Prop}
    (P : RowPlan B num sz c z) (hsz : ∀ k, k < num → sizeFor n map opt k num = .ok (sz k)) {val : (Fin n → V) → Res α} {l : (Fin n → V) → α}
    (hval : ∀ x, val x = .ok (l x)) (hl : ∀ k x y, k < num → Agree (c k) x y → l x = l y) {ms : List α}
    (h0 : R.Inv half l r num c z 2 ⟨ms, r, r1⟩) (h2 : 2 ≤ num) :
    ∃ w, R.Run r num w ∧ offBasic M map opt val ms r r1 = .ok ((List.range num).map (runMoment half l w)) := by
  have hlen : ms.length = num := by obtain ⟨w, hd, _⟩ := h0; exact hd.1
  unfold offBasic
  simp only
  rw [hlen]
  obtain ⟨s, e, w, hd, hh⟩ := foldlM_inv (offBasicStep M map opt num val) (fun k s => R.Inv half l r num c z k s) (num - 2) 2 (by
    rintro k s hk2 hk ⟨w, hd, hh⟩
    have hkn : k < num := by omega
    obtain ⟨y', ey, hm⟩ := hM.spmv 0 (sz k) s.r1 s.r0 (Nat.zero_le _) (P.le k hk2 hkn)
    obtain ⟨w', hw, ha, hh'⟩ := hR.held_step P hk2 hkn hh hm
    obtain ⟨col', ec, hd'⟩ := inv_collect hval hl hk2 hkn hd hw ha
    refine ⟨⟨col', s.r1, y'⟩, ?_, w', hd', hh'⟩
    unfold offBasicStep
    rw [hsz k hkn, Res.bind_ok, ey, Res.bind_ok, ec, Res.bind_ok]
    rfl) ⟨ms, r, r1⟩ h0
  rw [show 2 + (num - 2) = num by omega] at hd hh
  refine ⟨w, hh.run, ?_⟩
  rw [e, Res.bind_ok, hd.all]
  rfl

theorem rowInterleaved_eq {half : S} (hR : R.Local B) (hM : R.Follows M) (hS : Slices map.data B) {opt : Bool} {r r1 : Fin n → V} {num : Nat} {c : Nat → Nat}
    {z : Nat → Fin n → Prop} (P : RowPlan B num (fun k => rowsFor map opt k num) c z) {val : (Fin n → V) → Res α} {l : (Fin n → V) → α}
    (hval : ∀ x, val x = .ok (l x)) (hl : ∀ k x y, k < num → Agree (c k) x y → l x = l y) {ms : List α}
    (h0 : R.Inv half l r num c z 2 ⟨ms, r, r1⟩) (h2 : 2 ≤ num) (heven : num % 2 = 0) :
    ∃ w, R.Run r num w ∧ offInterleaved M map opt val ms r r1 = .ok ((List.range num).map (runMoment half l w)) := by
  have hlen : ms.length = num := by obtain ⟨w, hd, _⟩ := h0; exact hd.1
  unfold offInterleaved
  simp only
  rw [hlen]
  have loop : ∀ m k s, k + 2 * m ≤ num → 2 ≤ k → R.Inv half l r num c z k s →
      ∃ s', (List.range' k m 2).foldlM (offInterStep M map opt num val) s = .ok s' ∧ R.Inv half l r num c z (k + 2 * m) s' := by
    intro m
    induction m with
    | zero => intro k s _ _ h; exact ⟨s, rfl, h⟩
    | succ m ih =>
      rintro k s hk hk2 ⟨w, hd, hh⟩
      have q1 := ilMax_range (m := map) hS.nonempty (opt := opt) (show k < num by omega)
      have q2 := ilMax_range (m := map) hS.nonempty (opt := opt) (show k + 1 < num by omega)
      obtain ⟨t, et, m1, m2⟩ := rowIl_eq hR hM hS _ _ q1.1 q1.2 q2.1 q2.2 ilMax_step s.r0 s.r1
      obtain ⟨w1, hw1, ha1, hh1⟩ := hR.held_step P hk2 (show k < num by omega) hh m1
      obtain ⟨c1, ec1, hd1⟩ := inv_collect hval hl hk2 (show k < num by omega) hd hw1 ha1
      obtain ⟨w2, hw2, ha2, hh2⟩ := hR.held_step P (by omega) (show k + 1 < num by omega) hh1 m2
      obtain ⟨c2, ec2, hd2⟩ := inv_collect hval hl (by omega) (show k + 1 < num by omega) hd1 hw2 ha2
      obtain ⟨s', e', i'⟩ := ih (k + 2) ⟨c2, t.r0, t.r1⟩ (by omega) (by omega) ⟨w2, hd2, hh2⟩
      refine ⟨s', ?_, by rw [show k + 2 * (m + 1) = k + 2 + 2 * m by omega]; exact i'⟩
      rw [List.range'_succ, List.foldlM_cons]
      have : offInterStep M map opt num val s k = .ok ⟨c2, t.r0, t.r1⟩ := by
        unfold offInterStep
        simp only [et, Res.bind_ok, ec1, ec2]
        rfl
      rw [this, Res.bind_ok]
      exact e'
  obtain ⟨s, e, w, hd, hh⟩ := loop ((num - 1) / 2) 2 ⟨ms, r, r1⟩ (by omega) (le_refl _) h0
  rw [show 2 + 2 * ((num - 1) / 2) = num by omega] at hd hh
  refine ⟨w, hh.run, ?_⟩
  rw [e, Res.bind_ok, hd.all]
  rfl

/-- Every off-diagonal algorithm gives the moments of a run over all rows. -/
theorem withOff_rows {half : S} (hR : R.Local B) (hM : R.Follows M) {cfg : AlgorithmConfig} {r : Fin n → V}
    {val : (Fin n → V) → Res α} {l : (Fin n → V) → α} (hval : ∀ x, val x = .ok (l x)) (hready : Ready cfg map B r l) {moments : List α} (h2 : 2 ≤ moments.length)
    (heven : cfg.interleaved = true → moments.length % 2 = 0) :
    ∃ w, R.Run r moments.length w ∧ withOff half M map cfg val moments r = .ok ((List.range moments.length).map (runMoment half l w)) := by
  obtain ⟨r1, e1, hf⟩ := hM.r1 r
  unfold withOff
  rw [e1, Res.bind_ok]
  unfold offInitial
  rw [hval, Res.bind_ok]
  let w0 : Nat → Fin n → V := fun k => if k = 0 then r else r1
  have d0 : Done moments.length 0 (runMoment half l w0) moments := ⟨rfl, fun j hj => absurd hj (Nat.not_lt_zero _)⟩
  obtain ⟨l1, e1, d1⟩ := d0.set (by omega) (v := half • l r) rfl
  obtain ⟨l2, e2, d2⟩ := d1.set (by omega) (v := l r1) rfl
  rw [e1, Res.bind_ok, hval, Res.bind_ok, e2, Res.bind_ok]
  have hrun : R.Run r 2 w0 := ⟨rfl, hf, fun k hk => absurd hk (by omega)⟩
  rcases ho : cfg.optimalSize with _ | _
  · have inv : R.Inv half l r moments.length (fun _ => n) (fun _ _ => False) 2 ⟨l2, r, r1⟩ :=
      ⟨w0, d2, hrun, fun _ _ _ h => h.elim, fun _ _ => rfl, fun _ _ => rfl⟩
    have hl : ∀ (k : Nat) (x y : Fin n → V), k < moments.length → Agree n x y → l x = l y := by
      intro k x y _ h
      have : x = y := funext fun i => h i i.isLt
      rw [this]
    rcases hi : cfg.interleaved with _ | _
    · simp only [Bool.false_eq_true, if_false]
      exact rowBasic_eq hR hM (rowPlan_full B _) (fun k _ => rfl) hval hl inv h2
    · have S := hready.slices (Or.inr hi)
      simp only [if_true]
      refine rowInterleaved_eq hR hM S (opt := false) (c := fun _ => n) ?_ hval hl inv h2 (heven hi)
      have : (fun k => rowsFor map false k moments.length) = fun _ => n := by
        funext k
        unfold rowsFor ilMax SliceMap.lastIndex
        simp only [Bool.false_eq_true, if_false]
        rw [show ((map.data.length : Int) - 1).toNat = map.data.length - 1 by omega, S.last]
      rw [this]
      exact rowPlan_full B _
  · have S := hready.slices (Or.inl ho)
    have inv : R.Inv half l r moments.length (fun k => border map.data (moments.length - 1 - k + map.dest)) (fun k i => border map.data (k + map.src) ≤ i.val) 2
        ⟨l2, r, r1⟩ := by
      refine ⟨w0, d2, hrun, ?_, fun _ _ => rfl, fun _ _ => rfl⟩
      intro j hj i hz
      have hz0 : border map.data map.src ≤ i.val → r i = 0 := hready.start ho i
      obtain rfl | rfl : j = 0 ∨ j = 1 := by omega
      · rw [Nat.zero_add] at hz
        exact hz0 hz
      · refine hR.zeroFirst i r r1 (fun j hj => hready.start ho j ?_) hf
        exact (rowPlan_opt S 0 (map := map)).spread 0 i j hz hj |>.trans' (by rw [Nat.zero_add])
    have hl : ∀ (k : Nat) (x y : Fin n → V), k < moments.length → Agree (border map.data (moments.length - 1 - k + map.dest)) x y → l x = l y := by
      intro k x y hk h
      exact hready.depends ho x y fun i hi => h i (Nat.lt_of_lt_of_le hi (border_mono S.mono (by omega)))
    rcases hi : cfg.interleaved with _ | _
    · simp only [Bool.false_eq_true, if_false]
      exact rowBasic_eq hR hM (rowPlan_opt S _) (fun k hk => sizeFor_eq (fun _ => S.nonempty) S.last hk) hval hl inv h2
    · simp only [if_true]
      exact rowInterleaved_eq hR hM S (rowPlan_opt S _) hval hl inv h2 (heven hi)

end off

end Verif.Kpm
