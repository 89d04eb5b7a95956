import Verif.Numeric.Spec
import Mathlib.Data.List.Basic
import Mathlib.Data.List.GetD
import Mathlib.Data.List.Nodup
import Mathlib.Data.List.Range
import Mathlib.Algebra.Module.BigOperators
import Mathlib.Tactic.Abel

/-!
# Loops and reads
-/

namespace Verif.Numeric

variable {K V : Type}

theorem rd_ok {α : Type} (xs : List α) (i : Nat) (h : i < xs.length) : rd xs i = .ok xs[i] := by
  unfold rd; rw [List.getElem?_eq_getElem h]

theorem wr_ok {α : Type} (xs : List α) (i : Nat) (a : α) (h : i < xs.length) :
    wr xs i a = .ok (xs.set i a) := by unfold wr; rw [if_pos h]

theorem getV_ok {n : Nat} (x : Fin n → V) (i : Nat) (h : i < n) : getV x i = .ok (x ⟨i, h⟩) := by
  unfold getV; rw [dif_pos h]

theorem setV_ok {n : Nat} (y : Fin n → V) (i : Nat) (v : V) (h : i < n) :
    setV y i v = .ok (Function.update y ⟨i, h⟩ v) := by
  unfold setV; rw [dif_pos h]

/-- A loop whose steps all succeed. -/
theorem foldlM_ok {σ α : Type} (P : σ → Prop) (f : σ → α → Res σ) (g : σ → α → σ) (l : List α) (s : σ)
    (hs : P s) (h : ∀ a ∈ l, ∀ s, P s → f s a = .ok (g s a) ∧ P (g s a)) :
    l.foldlM f s = .ok (l.foldl g s) ∧ P (l.foldl g s) := by
  induction l generalizing s with
  | nil => exact ⟨rfl, hs⟩
  | cons a l ih =>
    obtain ⟨h1, h2⟩ := h a (List.mem_cons_self ..) s hs
    rw [List.foldlM_cons, h1]
    exact ih (g s a) h2 (fun b hb => h b (List.mem_cons_of_mem _ hb))

theorem foldlM_ok' {σ α : Type} (f : σ → α → Res σ) (g : σ → α → σ) (l : List α) (s : σ)
    (h : ∀ a ∈ l, ∀ s, f s a = .ok (g s a)) : l.foldlM f s = .ok (l.foldl g s) :=
  (foldlM_ok (fun _ => True) f g l s trivial (fun a ha s _ => ⟨h a ha s, trivial⟩)).1

theorem foldlM_congr {σ α : Type} (f g : σ → α → Res σ) (l : List α) (s : σ)
    (h : ∀ a ∈ l, ∀ s, f s a = g s a) : l.foldlM f s = l.foldlM g s := by
  induction l generalizing s with
  | nil => rfl
  | cons a l ih =>
    rw [List.foldlM_cons, List.foldlM_cons, h a (List.mem_cons_self ..)]
    congr 1
    funext s'
    exact ih s' (fun b hb => h b (List.mem_cons_of_mem _ hb))

theorem foldlM_flatMap {σ α β : Type} (l : List α) (g : α → List β) (f : σ → β → Res σ) (s : σ) :
    (l.flatMap g).foldlM f s = l.foldlM (fun s a => (g a).foldlM f s) s := by
  induction l generalizing s with
  | nil => rfl
  | cons a l ih =>
    rw [List.flatMap_cons, List.foldlM_append, List.foldlM_cons]
    congr 1
    funext s'
    exact ih s'

/-- A loop over positions of a buffer is a loop over its contents. -/
theorem foldlM_range'_rd {σ α : Type} (xs : List α) (f : σ → Nat → α → Res σ) (lo cnt : Nat) (s : σ)
    (h : lo + cnt ≤ xs.length) :
    (List.range' lo cnt).foldlM (fun s k => rd xs k >>= fun a => f s k a) s =
      (((xs.drop lo).take cnt).zipIdx lo).foldlM (fun s e => f s e.2 e.1) s := by
  induction cnt generalizing lo s with
  | zero => simp
  | succ cnt ih =>
    rw [List.range'_succ, List.foldlM_cons, rd_ok xs lo (by omega), Res.bind_ok,
      List.drop_eq_getElem_cons (by omega), List.take_succ_cons, List.zipIdx_cons, List.foldlM_cons]
    congr 1
    funext s'
    exact ih (lo + 1) s' (by omega)

theorem foldlM_zipIdx {σ α : Type} (xs : List α) (f : σ → α → Res σ) (lo : Nat) (s : σ) :
    (xs.zipIdx lo).foldlM (fun s e => f s e.1) s = xs.foldlM f s := by
  induction xs generalizing lo s with
  | nil => rfl
  | cons a xs ih =>
    rw [List.zipIdx_cons, List.foldlM_cons, List.foldlM_cons]
    congr 1
    funext s'
    exact ih (lo + 1) s'

theorem rd_zip (inner : List Nat) (vals : List K) (hlen : inner.length = vals.length) {σ : Type}
    (k : Nat) (f : Nat → K → Res σ) :
    (rd (inner.zip vals) k >>= fun e => f e.1 e.2) =
      (rd inner k >>= fun c => rd vals k >>= fun v => f c v) := by
  by_cases h : k < inner.length
  · rw [rd_ok inner k h, rd_ok vals k (by omega), rd_ok (inner.zip vals) k (by simp; omega)]
    simp
  · have h1 : inner[k]? = none := List.getElem?_eq_none (by omega)
    have h2 : (inner.zip vals)[k]? = none := List.getElem?_eq_none (by simp; omega)
    unfold rd
    rw [h1, h2]; rfl

theorem rd_zip' (inner : List Nat) (vals : List K) (hlen : inner.length = vals.length) {σ : Type}
    (k : Nat) (f : Nat → K → Res σ) :
    (rd (inner.zip vals) k >>= fun e => f e.1 e.2) =
      (rd vals k >>= fun v => rd inner k >>= fun c => f c v) := by
  by_cases h : k < inner.length
  · rw [rd_ok inner k h, rd_ok vals k (by omega), rd_ok (inner.zip vals) k (by simp; omega)]
    simp
  · have h1 : vals[k]? = none := List.getElem?_eq_none (by omega)
    have h2 : (inner.zip vals)[k]? = none := List.getElem?_eq_none (by simp; omega)
    unfold rd
    rw [h1, h2]; rfl

namespace Raw.WF

variable {m : Raw K} (h : m.WF)
include h

theorem outer_at (i : Nat) (hi : i ≤ m.rows) : rd m.outer i = .ok (m.outer.getD i 0) := by
  have := h.outerLen
  rw [rd_ok _ i (by omega), List.getD_eq_getElem _ _ (by omega)]

theorem outer_le (i : Nat) : m.outer.getD i 0 ≤ m.inner.length := by
  by_cases hi : i < m.outer.length
  · rw [List.getD_eq_getElem _ _ hi]; exact h.bound _ (List.getElem_mem hi)
  · rw [List.getD_eq_default _ _ (by omega)]; omega

theorem outer_mono {i j : Nat} (hij : i ≤ j) (hj : j ≤ m.rows) : m.outer.getD i 0 ≤ m.outer.getD j 0 := by
  have := h.outerLen
  rw [List.getD_eq_getElem _ _ (by omega), List.getD_eq_getElem _ _ (by omega)]
  rcases Nat.lt_or_ge i j with hlt | hge
  · exact List.pairwise_iff_getElem.1 h.mono i j (by omega) (by omega) hlt
  · have : i = j := by omega
    subst this; exact Nat.le_refl _

theorem outer_zero : m.outer.getD 0 0 = 0 := by
  have := h.first
  rw [List.getD_eq_getElem?_getD, this]; rfl

theorem row_col {i : Nat} {e : Nat × K} (he : e ∈ m.row i) : e.1 < m.cols :=
  h.colOk _ (List.of_mem_zip (List.mem_of_mem_drop (List.mem_of_mem_take he))).1

theorem row_length (i : Nat) (hi : i < m.rows) :
    (m.row i).length = m.outer.getD (i + 1) 0 - m.outer.getD i 0 := by
  unfold Raw.row
  have h1 := h.outer_le (i + 1)
  have h2 := h.outer_mono (Nat.le_add_right i 1) hi
  have h3 := h.len
  simp only [List.length_take, List.length_drop, List.length_zip]
  omega

/-- The loop over a row, reading column then value. -/
theorem row_loop {σ : Type} (i : Nat) (hi : i < m.rows) (f : σ → Nat → K → Res σ) (s : σ) :
    (List.range' (m.outer.getD i 0) (m.outer.getD (i + 1) 0 - m.outer.getD i 0)).foldlM
      (fun s k => rd m.inner k >>= fun c => rd m.vals k >>= fun v => f s c v) s =
    (m.row i).foldlM (fun s e => f s e.1 e.2) s := by
  have h1 := h.outer_le (i + 1)
  have h2 := h.outer_mono (Nat.le_add_right i 1) hi
  have h3 := h.len
  rw [foldlM_congr _ (fun s k => rd (m.inner.zip m.vals) k >>= fun e => f s e.1 e.2) _ _
    (fun k _ s => (rd_zip m.inner m.vals h3 k (f s)).symm),
    foldlM_range'_rd (m.inner.zip m.vals) (fun s _ e => f s e.1 e.2) (m.outer.getD i 0)
      (m.outer.getD (i + 1) 0 - m.outer.getD i 0) s (by rw [List.length_zip]; omega)]
  exact foldlM_zipIdx _ (fun s (e : Nat × K) => f s e.1 e.2) _ _

/-- The loop over a row, reading value then column. -/
theorem row_loop' {σ : Type} (i : Nat) (hi : i < m.rows) (f : σ → Nat → K → Res σ) (s : σ) :
    (List.range' (m.outer.getD i 0) (m.outer.getD (i + 1) 0 - m.outer.getD i 0)).foldlM
      (fun s k => rd m.vals k >>= fun v => rd m.inner k >>= fun c => f s c v) s =
    (m.row i).foldlM (fun s e => f s e.1 e.2) s := by
  rw [← h.row_loop i hi f s]
  refine foldlM_congr _ _ _ _ (fun k _ s => ?_)
  rw [← rd_zip' m.inner m.vals h.len, rd_zip m.inner m.vals h.len]

end Raw.WF

theorem forEachInRow_eq {m : Raw K} (h : m.WF) {σ : Type} (i : Nat) (hi : i < m.rows)
    (f : σ → Nat → K → Res σ) (s : σ) :
    forEachInRow m i f s = (m.row i).foldlM (fun s e => f s e.1 e.2) s := by
  unfold forEachInRow
  rw [h.outer_at i (by omega), Res.bind_ok, h.outer_at (i + 1) hi, Res.bind_ok]
  exact h.row_loop i hi f s

theorem forEach_eq {m : Raw K} (h : m.WF) {σ : Type} (f : σ → Nat → Nat → K → Res σ) (s : σ) :
    forEach m f s = m.entries.foldlM (fun s e => f s e.1 e.2.1 e.2.2) s := by
  unfold forEach Raw.entries
  rw [foldlM_flatMap]
  refine foldlM_congr _ _ _ _ (fun i hi s => ?_)
  have hi := List.mem_range.1 hi
  rw [h.outer_at i (by omega), Res.bind_ok, h.outer_at (i + 1) hi, Res.bind_ok, List.foldlM_map]
  exact h.row_loop i hi (fun s c v => f s i c v) s

/-! ## Row-wise updates of a dense vector -/

/-- A loop which replaces `y[row]` by a function of `row` and its old value. -/
theorem rowsLoop {n : Nat} (F : Nat → V → V) (f : (Fin n → V) → Nat → Res (Fin n → V)) (l : List Nat)
    (hnd : l.Nodup) (hl : ∀ r ∈ l, r < n) (y : Fin n → V)
    (hf : ∀ (y : Fin n → V) (r : Nat) (hr : r < n), r ∈ l →
      f y r = .ok (Function.update y ⟨r, hr⟩ (F r (y ⟨r, hr⟩)))) :
    l.foldlM f y = .ok (fun i => if i.val ∈ l then F i.val (y i) else y i) := by
  induction l generalizing y with
  | nil => simp
  | cons r l ih =>
    have hr := hl r (List.mem_cons_self ..)
    rw [List.foldlM_cons, hf y r hr (List.mem_cons_self ..), Res.bind_ok,
      ih (List.nodup_cons.1 hnd).2 (fun r h => hl r (List.mem_cons_of_mem _ h)) _
        (fun y r h h' => hf y r h (List.mem_cons_of_mem _ h'))]
    congr 1
    funext i
    have hnm := (List.nodup_cons.1 hnd).1
    by_cases hi : i.val = r
    · have : i = ⟨r, hr⟩ := Fin.ext hi
      subst this
      simp [hnm]
    · have hne : i ≠ ⟨r, hr⟩ := fun e => hi (by rw [e])
      simp [Function.update_of_ne hne, hi]

theorem range'_mem (start stop i : Nat) :
    i ∈ List.range' start (stop - start) ↔ start ≤ i ∧ i < stop := by
  rw [List.mem_range'_1]; omega

theorem sum_fin_ite [AddCommMonoid V] {n : Nat} (f : Fin n → V) (c : Nat) (hc : c < n) :
    (∑ j, if c = j.val then f j else 0) = f ⟨c, hc⟩ := by
  rw [Finset.sum_eq_single (⟨c, hc⟩ : Fin n)]
  · simp
  · intro j _ hj
    rw [if_neg]
    intro e; exact hj (Fin.ext e.symm)
  · intro h; exact absurd (Finset.mem_univ _) h

theorem foldl_add_sum {α : Type} [AddCommMonoid V] (l : List α) (g : α → V) (s : V) :
    l.foldl (fun r a => r + g a) s = s + (l.map g).sum := by
  induction l generalizing s with
  | nil => simp
  | cons a l ih => rw [List.foldl_cons, ih, List.map_cons, List.sum_cons, add_assoc]

/-- The sum over the entries of a row is the matrix-vector product. -/
theorem entries_sum [Semiring K] [AddCommMonoid V] [Module K V] {n : Nat} (r : List (Nat × K))
    (hr : ∀ e ∈ r, e.1 < n) (x : Fin n → V) (g : Nat × K → V)
    (hg : ∀ e ∈ r, ∀ h : e.1 < n, g e = e.2 • x ⟨e.1, h⟩) :
    (r.map g).sum = ∑ j : Fin n, (((r.filter (fun e => e.1 = j.val)).map (·.2)).sum) • x j := by
  induction r with
  | nil => simp
  | cons e r ih =>
    have he := hr e (List.mem_cons_self ..)
    rw [List.map_cons, List.sum_cons, ih (fun e h => hr e (List.mem_cons_of_mem _ h))
      (fun e h => hg e (List.mem_cons_of_mem _ h)), hg e (List.mem_cons_self ..) he]
    rw [show e.2 • x ⟨e.1, he⟩ = ∑ j : Fin n, if e.1 = j.val then e.2 • x j else 0 from
      (sum_fin_ite (fun j => e.2 • x j) e.1 he).symm, ← Finset.sum_add_distrib]
    refine Finset.sum_congr rfl (fun j _ => ?_)
    by_cases hj : e.1 = j.val
    · rw [if_pos hj, List.filter_cons_of_pos (by simpa using hj), List.map_cons, List.sum_cons, add_smul]
    · rw [if_neg hj, List.filter_cons_of_neg (by simpa using hj), zero_add]

theorem csrRowSum_eq [Ring K] [AddCommGroup V] [Module K V] {m : Raw K} {n : Nat} (h : m.WF)
    (hr : m.rows = n) (hc : m.cols = n) (x : Fin n → V) (i : Fin n) :
    csrRowSum m x i.val = .ok (∑ j, m.toMatrix n i j • x j) := by
  have hi : i.val < m.rows := by rw [hr]; exact i.isLt
  unfold csrRowSum
  rw [h.outer_at i.val (by omega), Res.bind_ok, h.outer_at (i.val + 1) hi, Res.bind_ok]
  refine Eq.trans (h.row_loop' i.val hi (fun r c a => getV x c >>= fun b => pure (r + a • b)) 0) ?_
  let g : Nat × K → V := fun e => if hh : e.1 < n then e.2 • x ⟨e.1, hh⟩ else 0
  have hcol : ∀ e ∈ m.row i.val, e.1 < n := fun e he => hc ▸ h.row_col he
  rw [foldlM_ok' _ (fun r e => r + g e) _ _ (fun e he r => by
    rw [getV_ok x e.1 (hcol e he)]
    simp [g, hcol e he]), foldl_add_sum, zero_add,
    entries_sum (m.row i.val) hcol x g (fun e he hh => by simp [g, hh])]
  rfl

end Verif.Numeric
