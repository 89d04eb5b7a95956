import Verif.Numeric.Lemmas
import Mathlib.Algebra.Order.BigOperators.Group.List
import Mathlib.Data.List.Perm.Basic
import Mathlib.Tactic.Ring

/-!
# The multiply kernels compute `A x - y`
-/

namespace Verif.Numeric

variable {K V : Type}

/-- The vector after applying `F` to the elements on the rows of a list. -/
def onRows {n : Nat} (F : Nat → V → V) (l : List Nat) (y : Fin n → V) : Fin n → V :=
  fun i => if i.val ∈ l then F i.val (y i) else y i

theorem rowsLoop' {n : Nat} (F : Nat → V → V) (f : (Fin n → V) → Nat → Res (Fin n → V)) (l : List Nat)
    (hnd : l.Nodup) (hl : ∀ r ∈ l, r < n) (y : Fin n → V)
    (hf : ∀ (y : Fin n → V) (r : Nat) (hr : r < n), r ∈ l →
      f y r = .ok (Function.update y ⟨r, hr⟩ (F r (y ⟨r, hr⟩)))) :
    l.foldlM f y = .ok (onRows F l y) := rowsLoop F f l hnd hl y hf

theorem nodup_range' (a b : Nat) : (List.range' a b).Nodup := List.nodup_range'

theorem range'_lt {start stop n : Nat} (h : stop ≤ n) : ∀ r ∈ List.range' start (stop - start), r < n :=
  fun r hr => by have := (range'_mem start stop r).1 hr; omega

theorem kpmSpmvCsr_eq [Ring K] [AddCommGroup V] [Module K V] {m : Raw K} {n : Nat} (h : m.WF)
    (hr : m.rows = n) (hc : m.cols = n) (start stop : Nat) (hs : stop ≤ n) (x y : Fin n → V) :
    kpmSpmvCsr m start stop x y = .ok (mulSub (m.toMatrix n) start stop x y) := by
  unfold kpmSpmvCsr
  rw [rowsLoop (fun r old => (if h : r < n then ∑ j, m.toMatrix n ⟨r, h⟩ j • x j else 0) - old) _ _
    (nodup_range' ..) (range'_lt hs)]
  · congr 1
    funext i
    simp only [mulSub, range'_mem, i.isLt, dif_pos]
  · intro y r hr' _
    have := csrRowSum_eq h hr hc x ⟨r, hr'⟩
    simp only at this
    rw [this, Res.bind_ok, getV_ok y r hr', Res.bind_ok, setV_ok _ _ _ hr']
    simp [hr']

/-! ## ELLPACK -/

/-- The contribution of column `k` of an ELLPACK matrix to a row. -/
def ellTerm [Semiring K] [AddCommMonoid V] [Module K V] {n : Nat} (m : Ell K) (x : Fin n → V) (row k : Nat) : V :=
  if h : m.indices row k < n then m.data row k • x ⟨m.indices row k, h⟩ else 0

/-- The contribution of the first `c` columns. -/
def ellPart [Semiring K] [AddCommMonoid V] [Module K V] {n : Nat} (m : Ell K) (x : Fin n → V) (row c : Nat) : V :=
  ∑ k ∈ Finset.range c, ellTerm m x row k

theorem ellPart_all [Semiring K] [AddCommMonoid V] [Module K V] {n : Nat} {m : Ell K} (h : m.WF n)
    (x : Fin n → V) (i : Fin n) : ellPart m x i.val m.nnzPerRow = ∑ j, m.toMatrix n i j • x j := by
  unfold ellPart Ell.toMatrix
  simp only [Finset.sum_smul]
  rw [Finset.sum_comm]
  refine Finset.sum_congr rfl (fun k hk => ?_)
  have hlt := h.colOk i.val i.isLt k (Finset.mem_range.1 hk)
  unfold ellTerm
  rw [dif_pos hlt, ← sum_fin_ite (fun j => m.data i.val k • x j) _ hlt]
  refine Finset.sum_congr rfl (fun j _ => ?_)
  split <;> simp

theorem ellPart_succ [Semiring K] [AddCommMonoid V] [Module K V] {n : Nat} (m : Ell K) (x : Fin n → V)
    (row c : Nat) : ellPart m x row (c + 1) = ellPart m x row c + ellTerm m x row c := by
  unfold ellPart; rw [Finset.sum_range_succ]

section
variable [Ring K] [AddCommGroup V] [Module K V] {n : Nat} {m : Ell K}

theorem Ell.WF.reads (h : m.WF n) (x : Fin n → V) {row k : Nat} (hr : row < n) (hk : k < m.nnzPerRow) :
    m.dataAt row k = .ok (m.data row k) ∧ m.idxAt row k = .ok (m.indices row k) ∧
      (∃ b, getV x (m.indices row k) = .ok b ∧ ellTerm m x row k = m.data row k • b) := by
  have h1 := h.dataOk
  have h2 := h.idxOk
  refine ⟨?_, ?_, ?_⟩
  · unfold Ell.dataAt; rw [if_pos ⟨by omega, hk⟩]
  · unfold Ell.idxAt; rw [if_pos ⟨by omega, hk⟩]
  · have := h.colOk row hr k hk
    exact ⟨_, getV_ok x _ this, by unfold ellTerm; rw [dif_pos this]⟩

theorem kpmSpmvEll_eq (h : m.WF n) (start stop : Nat) (hs : stop ≤ n) (x y : Fin n → V) :
    kpmSpmvEll m start stop x y = .ok (mulSub (m.toMatrix n) start stop x y) := by
  unfold kpmSpmvEll
  rw [rowsLoop' (fun _ old => -old) _ _ (nodup_range' ..) (range'_lt hs) y (fun y r hr _ => by
    rw [getV_ok y r hr, Res.bind_ok, setV_ok _ _ _ hr]), Res.bind_ok]
  suffices H : ∀ c ≤ m.nnzPerRow, (List.range c).foldlM (fun y k =>
      (List.range' start (stop - start)).foldlM (fun y row => do
        let a ← m.dataAt row k
        let c ← m.idxAt row k
        let b ← getV x c
        let old ← getV y row
        setV y row (old + a • b)) y) (onRows (fun _ old => -old) (List.range' start (stop - start)) y) =
      .ok (onRows (fun r old => ellPart m x r c - old) (List.range' start (stop - start)) y) by
    rw [H _ (Nat.le_refl _)]
    congr 1
    funext i
    simp only [onRows, mulSub, range'_mem, ellPart_all h x i]
  intro c hc
  induction c with
  | zero =>
    simp [ellPart]
  | succ c ih =>
    rw [List.range_succ, List.foldlM_append, ih (by omega), Res.bind_ok, List.foldlM_cons]
    rw [rowsLoop' (fun r old => old + ellTerm m x r c) _ _ (nodup_range' ..) (range'_lt hs)]
    · rw [Res.bind_ok]
      show Res.ok _ = Res.ok _
      congr 1
      funext i
      unfold onRows
      split
      · simp only [ellPart_succ]; abel
      · rfl
    · intro y r hr _
      obtain ⟨h1, h2, b, h3, h4⟩ := h.reads x hr (show c < m.nnzPerRow by omega)
      rw [h1, Res.bind_ok, h2, Res.bind_ok, h3, Res.bind_ok, getV_ok y r hr, Res.bind_ok, setV_ok _ _ _ hr, h4]

/-! ## The split loop -/

theorem peelLoop_spec (aligned : Nat → Bool) (fuel p : Nat) :
    p ≤ peelLoop aligned fuel p ∧ peelLoop aligned fuel p ≤ p + fuel ∧
      (peelLoop aligned fuel p < p + fuel → aligned (peelLoop aligned fuel p) = true) ∧
      (∀ i, p ≤ i → i < peelLoop aligned fuel p → aligned i = false) := by
  induction fuel generalizing p with
  | zero => simp [peelLoop]; intro i h1 h2; omega
  | succ fuel ih =>
    unfold peelLoop
    split
    · rename_i h
      refine ⟨Nat.le_refl _, by omega, fun _ => h, fun i h1 h2 => by omega⟩
    · rename_i h
      obtain ⟨h1, h2, h3, h4⟩ := ih (p + 1)
      refine ⟨by omega, by omega, fun hlt => h3 (by omega), fun i hi hlt => ?_⟩
      by_cases he : i = p
      · subst he; simpa using h
      · exact h4 i (by omega) hlt

theorem vecLoop_spec (step : Nat) (hstep : 0 < step) (d : Nat) :
    vecLoop step d ≤ d ∧ step ∣ vecLoop step d ∧ d - vecLoop step d < step := by
  induction d with
  | zero => simp [vecLoop, hstep]
  | succ d ih =>
    unfold vecLoop
    split
    · rename_i h
      obtain ⟨h1, h2, h3⟩ := ih
      refine ⟨by omega, h2, ?_⟩
      by_contra hge
      have : d + 1 = vecLoop step d + step := by omega
      apply h
      rw [this, Nat.add_mod_right]
      exact Nat.mod_eq_zero_of_dvd h2
    · rename_i h
      refine ⟨Nat.le_refl _, Nat.dvd_of_mod_eq_zero (by simpa using h), by omega⟩

theorem splitLoop_spec (aligned : Nat → Bool) (step start stop : Nat) (hstep : 0 < step) (hs : start ≤ stop) :
    let l := splitLoop aligned step start stop
    l.start = start ∧ l.stop = stop ∧ start ≤ l.peelEnd ∧ l.peelEnd ≤ l.vecEnd ∧ l.vecEnd ≤ stop ∧
      step ∣ l.vecEnd - l.peelEnd ∧ stop - l.vecEnd < step ∧
      (l.peelEnd < stop → aligned l.peelEnd = true) := by
  obtain ⟨h1, h2, h3, _⟩ := peelLoop_spec aligned (stop - start) start
  obtain ⟨g1, g2, g3⟩ := vecLoop_spec step hstep (stop - peelLoop aligned (stop - start) start)
  unfold splitLoop
  simp only
  refine ⟨trivial, trivial, h1, by omega, by omega, ?_, by omega, fun h => h3 (by omega)⟩
  rw [Nat.add_sub_cancel_left]; exact g2

theorem flatMap_range' (a t step : Nat) :
    (List.range' a t step).flatMap (fun r => List.range' r step) = List.range' a (t * step) := by
  induction t generalizing a with
  | zero => simp
  | succ t ih =>
    rw [List.range'_succ, List.flatMap_cons, ih, Nat.add_mul, Nat.one_mul, Nat.add_comm (t * step),
      ← List.range'_append_1]

theorem trips_eq (lo hi step : Nat) (hstep : 0 < step) (hd : step ∣ hi - lo) :
    trips lo hi step * step = hi - lo := by
  obtain ⟨q, hq⟩ := hd
  unfold trips
  rw [hq]
  have : (step * q + step - 1) / step = q := by
    rw [Nat.add_sub_assoc hstep, Nat.add_comm, Nat.add_mul_div_left _ _ hstep,
      Nat.div_eq_of_lt (by omega), Nat.zero_add]
  rw [this, Nat.mul_comm]

/-- The rows visited by the three sections, in order. -/
theorem split_rows (start peel vec stop step : Nat) (hstep : 0 < step) (h1 : start ≤ peel)
    (h2 : peel ≤ vec) (h3 : vec ≤ stop) (hd : step ∣ vec - peel) :
    List.range' start (peel - start) ++ ((List.range' peel (trips peel vec step) step).flatMap
      (fun r => List.range' r step) ++ List.range' vec (stop - vec)) = List.range' start (stop - start) := by
  rw [flatMap_range', trips_eq _ _ _ hstep hd]
  have e1 : List.range' peel (vec - peel) ++ List.range' vec (stop - vec) = List.range' peel (stop - peel) := by
    have := List.range'_append_1 (s := peel) (m := vec - peel) (n := stop - vec)
    rwa [show peel + (vec - peel) = vec by omega, show vec - peel + (stop - vec) = stop - peel by omega] at this
  rw [e1]
  have := List.range'_append_1 (s := start) (m := peel - start) (n := stop - peel)
  rwa [show start + (peel - start) = peel by omega, show peel - start + (stop - peel) = stop - start by omega] at this

/-! ## The vectorised kernel -/

/-- What one column does to an element. -/
def laneF (m : Ell K) (x : Fin n → V) (k : Nat) (r : Nat) (old : V) : V :=
  ellTerm m x r k + (if k = 0 then -old else old)

theorem ellLane_eq (h : m.WF n) (x y : Fin n → V) {k r : Nat} (hk : k < m.nnzPerRow) (hr : r < n) :
    ellLane m k x y r = .ok (laneF m x k r (y ⟨r, hr⟩)) := by
  obtain ⟨h1, h2, b, h3, h4⟩ := h.reads x hr hk
  unfold ellLane
  rw [h1, Res.bind_ok, h2, Res.bind_ok, h3, Res.bind_ok, getV_ok y r hr, Res.bind_ok]
  unfold laneF
  rw [h4]; rfl

theorem ellScalarStep_eq (h : m.WF n) (x y : Fin n → V) {k r : Nat} (hk : k < m.nnzPerRow) (hr : r < n) :
    ellScalarStep m k x y r = .ok (Function.update y ⟨r, hr⟩ (laneF m x k r (y ⟨r, hr⟩))) := by
  unfold ellScalarStep
  rw [ellLane_eq h x y hk hr, Res.bind_ok, setV_ok _ _ _ hr]

theorem scalarRows (h : m.WF n) (x y : Fin n → V) {k : Nat} (hk : k < m.nnzPerRow) (l : List Nat)
    (hnd : l.Nodup) (hl : ∀ r ∈ l, r < n) :
    l.foldlM (ellScalarStep m k x) y = .ok (onRows (laneF m x k) l y) :=
  rowsLoop' _ _ l hnd hl y (fun y _ hr _ => ellScalarStep_eq h x y hk hr)

theorem mapM_ok {α β : Type} (f : α → Res β) (g : α → β) (l : List α) (h : ∀ a ∈ l, f a = .ok (g a)) :
    l.mapM f = .ok (l.map g) := by
  induction l with
  | nil => rfl
  | cons a l ih =>
    rw [List.mapM_cons, h a (List.mem_cons_self ..), ih (fun b hb => h b (List.mem_cons_of_mem _ hb))]
    rfl

/-- An element of a vector, extended by zero. -/
def ex (x : Fin n → V) (r : Nat) : V := if h : r < n then x ⟨r, h⟩ else 0

theorem ex_lt (x : Fin n → V) {r : Nat} (h : r < n) : ex x r = x ⟨r, h⟩ := dif_pos h

/-- Storing lanes computed beforehand. -/
theorem store_lanes (l : List Nat) (g : Nat → V) (hnd : l.Nodup) (hl : ∀ r ∈ l, r < n) (y : Fin n → V) :
    (l.zip (l.map g)).foldlM (fun y p => setV y p.1 p.2) y = .ok (onRows (fun r _ => g r) l y) := by
  rw [List.zip_map_right, show l.zip l = l.map (fun a => (a, a)) by
    simp [List.zip_eq_zipWith], List.map_map, List.foldlM_map]
  exact rowsLoop' (fun r _ => g r) _ l hnd hl y (fun y r hr _ => by
    simp only [Function.comp_apply, Prod.map_apply, id_eq]
    rw [setV_ok _ _ _ hr])

theorem ellVecStep_eq (h : m.WF n) (x y : Fin n → V) {k : Nat} (hk : k < m.nnzPerRow) (step row : Nat)
    (hr : row + step ≤ n) :
    ellVecStep m k step x y row = .ok (onRows (laneF m x k) (List.range' row step) y) := by
  have hl : ∀ r ∈ List.range' row step, r < n := fun r hm => by
    have := List.mem_range'_1.1 hm; omega
  unfold ellVecStep
  rw [mapM_ok _ (fun r => laneF m x k r (ex y r)) _ (fun r hm => by
    rw [ellLane_eq h x y hk (hl r hm), ex_lt y (hl r hm)]), Res.bind_ok,
    store_lanes _ _ (nodup_range' ..) hl]
  congr 1
  funext i
  simp only [onRows, ex_lt y i.isLt]

theorem vecStep_scalar (h : m.WF n) (x y : Fin n → V) {k : Nat} (hk : k < m.nnzPerRow) (step row : Nat)
    (hr : row + step ≤ n) :
    ellVecStep m k step x y row = (List.range' row step).foldlM (ellScalarStep m k x) y := by
  rw [ellVecStep_eq h x y hk step row hr, scalarRows h x y hk _ (nodup_range' ..) (fun r hm => by
    have := List.mem_range'_1.1 hm; omega)]

theorem range'_step_mem {a t step r : Nat} (h : r ∈ List.range' a t step) : r + step ≤ a + t * step := by
  obtain ⟨i, hi, rfl⟩ := List.mem_range'.1 h
  have : (i + 1) * step ≤ t * step := Nat.mul_le_mul_right _ hi
  rw [Nat.add_mul, Nat.one_mul] at this
  rw [Nat.mul_comm step i]; omega

theorem ellColumn_eq (h : m.WF n) (aligned : Nat → Bool) (step : Nat) (hstep : 0 < step) {k : Nat}
    (hk : k < m.nnzPerRow) (start stop : Nat) (hs : start ≤ stop) (hn : stop ≤ n) (x y : Fin n → V) :
    ellColumn m k step (splitLoop aligned step start stop) x y =
      .ok (onRows (laneF m x k) (List.range' start (stop - start)) y) := by
  obtain ⟨e1, e2, h1, h2, h3, h4, _, _⟩ := splitLoop_spec aligned step start stop hstep hs
  generalize splitLoop aligned step start stop = l at *
  unfold ellColumn
  rw [e1, e2]
  have hvec : ∀ y : Fin n → V, (List.range' l.peelEnd (trips l.peelEnd l.vecEnd step) step).foldlM
      (ellVecStep m k step x) y = ((List.range' l.peelEnd (trips l.peelEnd l.vecEnd step) step).flatMap
        (fun r => List.range' r step)).foldlM (ellScalarStep m k x) y := by
    intro y
    rw [foldlM_flatMap]
    refine foldlM_congr _ _ _ _ (fun r hr y => ?_)
    have := range'_step_mem hr
    rw [trips_eq _ _ _ hstep h4] at this
    exact vecStep_scalar h x y hk step r (by omega)
  have hrows := split_rows start l.peelEnd l.vecEnd stop step hstep h1 h2 h3 h4
  rw [← scalarRows h x y hk (List.range' start (stop - start)) (nodup_range' ..) (range'_lt hn), ← hrows,
    List.foldlM_append]
  congr 1
  funext y'
  rw [hvec, List.foldlM_append]

/-- The effect of the first `c` columns. -/
def colsF (m : Ell K) (x : Fin n → V) (c : Nat) (r : Nat) (old : V) : V :=
  if c = 0 then old else ellPart m x r c - old

theorem colsF_succ (m : Ell K) (x : Fin n → V) (c r : Nat) (old : V) :
    laneF m x c r (colsF m x c r old) = colsF m x (c + 1) r old := by
  unfold laneF colsF
  rw [if_neg (Nat.succ_ne_zero c), ellPart_succ]
  by_cases hc : c = 0
  · subst hc; simp [ellPart]; abel
  · rw [if_neg hc, if_neg hc]; abel

theorem onRows_comp (F G : Nat → V → V) (l : List Nat) (y : Fin n → V) :
    onRows F l (onRows G l y) = onRows (fun r v => F r (G r v)) l y := by
  funext i; unfold onRows; split <;> rfl

theorem colsLoop (x y : Fin n → V) (l : List Nat) (col : (Fin n → V) → Nat → Res (Fin n → V)) (c : Nat)
    (hcol : ∀ k < c, ∀ y, col y k = .ok (onRows (laneF m x k) l y)) :
    (List.range c).foldlM col y = .ok (onRows (colsF m x c) l y) := by
  induction c with
  | zero =>
    show Res.ok y = Res.ok _
    congr 1
    funext i
    simp [onRows, colsF]
  | succ c ih =>
    rw [List.range_succ, List.foldlM_append, ih (fun k hk => hcol k (by omega)), Res.bind_ok,
      List.foldlM_cons, hcol c (by omega), Res.bind_ok, onRows_comp]
    show Res.ok _ = Res.ok _
    congr 2
    funext r v
    exact colsF_succ m x c r v

theorem kpmSpmvSimd_part (h : m.WF n) (aligned : Nat → Bool) (step : Nat) (hstep : 0 < step) (skip : Nat)
    (start stop : Nat) (hs : start ≤ stop) (hn : stop ≤ n) (x y : Fin n → V) :
    kpmSpmvSimd m aligned step skip start stop x y =
      .ok (onRows (colsF m x (m.nnzPerRow - skip)) (List.range' start (stop - start)) y) := by
  unfold kpmSpmvSimd
  exact colsLoop x y _ _ _ (fun k hk y =>
    ellColumn_eq h aligned step hstep (by omega) start stop hs hn x y)

theorem kpmSpmvSimdBatch_part (h : m.WF n) (skip : Nat)
    (start stop : Nat) (hn : stop ≤ n) (x y : Fin n → V) :
    kpmSpmvSimdBatch m skip start stop x y =
      .ok (onRows (colsF m x (m.nnzPerRow - skip)) (List.range' start (stop - start)) y) := by
  unfold kpmSpmvSimdBatch
  exact colsLoop x y _ _ _ (fun k hk y =>
    scalarRows h x y (by omega) _ (nodup_range' ..) (range'_lt hn))

theorem onRows_mulSub (h : m.WF n) (hnz : m.nnzPerRow ≠ 0) (start stop : Nat) (x y : Fin n → V) :
    onRows (colsF m x m.nnzPerRow) (List.range' start (stop - start)) y =
      mulSub (m.toMatrix n) start stop x y := by
  funext i
  simp only [onRows, mulSub, range'_mem, colsF, if_neg hnz, ellPart_all h x i]

theorem kpmSpmvSimd_eq (h : m.WF n) (hnz : m.nnzPerRow ≠ 0) (aligned : Nat → Bool) (step : Nat)
    (hstep : 0 < step) (start stop : Nat) (hs : start ≤ stop) (hn : stop ≤ n) (x y : Fin n → V) :
    kpmSpmvSimd m aligned step 0 start stop x y = .ok (mulSub (m.toMatrix n) start stop x y) := by
  rw [kpmSpmvSimd_part h aligned step hstep 0 start stop hs hn, Nat.sub_zero, onRows_mulSub h hnz]

theorem kpmSpmvSimdBatch_eq (h : m.WF n) (hnz : m.nnzPerRow ≠ 0)
    (start stop : Nat) (hn : stop ≤ n) (x y : Fin n → V) :
    kpmSpmvSimdBatch m 0 start stop x y = .ok (mulSub (m.toMatrix n) start stop x y) := by
  rw [kpmSpmvSimdBatch_part h 0 start stop hn, Nat.sub_zero, onRows_mulSub h hnz]

end

end Verif.Numeric
