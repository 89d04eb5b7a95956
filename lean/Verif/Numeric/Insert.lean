import Verif.Numeric.Lemmas
import Mathlib.Data.List.Perm.Basic
import Mathlib.Data.List.Forall2

/-!
# The row-wise inserter
-/

namespace Verif.Numeric

variable {K : Type}

/-- Specification: the rows described by a sequence of calls, entries in the order of insertion. -/
def rowsOf (rows : List (List (Nat × K))) : InsOp K → List (List (Nat × K))
  | .startRow => rows ++ [[]]
  | .startRowAt r => rows ++ List.replicate (r + 1 - rows.length) []
  | .insert c v => rows.dropLast ++ [rows.getLastD [] ++ [(c, v)]]

/-- Specification: a sequence of calls that stays within the matrix: no more than `R` rows are
started, nothing is inserted before the first row is started, at most `cap` entries are inserted and
their columns are less than `cols`. -/
def Within (R cap cols : Nat) : List (List (Nat × K)) → List (InsOp K) → Prop
  | _, [] => True
  | rows, op :: ops =>
    (rowsOf rows op).length ≤ R ∧ (rowsOf rows op).flatten.length ≤ cap ∧
    (match op with | .insert c _ => rows ≠ [] ∧ c < cols | _ => True) ∧ Within R cap cols (rowsOf rows op) ops

/-- Sorted by column. -/
def ColSorted (r : List (Nat × K)) : Prop := r.Pairwise (fun a b => a.1 ≤ b.1)

/-- The two element writes at the end of `insert`. -/
def shiftWrite (column : Nat) (value : K) (start n : Nat) (inner : List Nat) (vals : List K) :
    Res (List Nat × List K) := do
  let r ← Inserter.shift column start n inner vals
  let inner ← wr r.2.1 r.1 column
  let vals ← wr r.2.2 r.1 value
  return (inner, vals)

theorem wr_append {α : Type} (P S : List α) (x a : α) : wr (P ++ x :: S) P.length a = .ok (P ++ a :: S) := by
  rw [wr_ok _ _ _ (by simp)]
  simp

theorem rd_append {α : Type} (P S : List α) (x : α) : rd (P ++ x :: S) P.length = .ok x := by
  rw [rd_ok _ _ (by simp)]
  simp

theorem shiftWrite_spec (column : Nat) (value : K) (pre q : List (Nat × K)) (hq : ColSorted q)
    (x : Nat) (S : List Nat) (y : K) (T : List K) :
    ∃ q1 q2, q = q1 ++ q2 ∧ ColSorted (q1 ++ (column, value) :: q2) ∧
      shiftWrite column value pre.length (pre.length + q.length)
        ((pre ++ q).map (·.1) ++ x :: S) ((pre ++ q).map (·.2) ++ y :: T) =
      .ok ((pre ++ (q1 ++ (column, value) :: q2)).map (·.1) ++ S,
        (pre ++ (q1 ++ (column, value) :: q2)).map (·.2) ++ T) := by
  induction q using List.reverseRecOn generalizing x S y T with
  | nil =>
    refine ⟨[], [], rfl, by simp [ColSorted], ?_⟩
    unfold shiftWrite
    have hs : Inserter.shift column pre.length (pre.length + 0) (pre.map (·.1) ++ x :: S) (pre.map (·.2) ++ y :: T) =
        .ok (pre.length, pre.map (·.1) ++ x :: S, pre.map (·.2) ++ y :: T) := by
      rw [Nat.add_zero]
      rcases hp : pre.length with _ | k
      · rfl
      · unfold Inserter.shift; rw [if_neg (by omega)]
    rw [List.length_nil, List.append_nil, hs]
    simp only [Res.bind_ok]
    have h1 := wr_append (pre.map (·.1)) S x column
    have h2 := wr_append (pre.map (·.2)) T y value
    rw [List.length_map] at h1 h2
    rw [h1, Res.bind_ok, h2]
    simp
  | append_singleton q e ih =>
    have hq' : ColSorted q := (List.pairwise_append.1 hq).1
    have hle : ∀ a ∈ q, a.1 ≤ e.1 := fun a ha => (List.pairwise_append.1 hq).2.2 a ha e (by simp)
    have hlen : (pre ++ (q ++ [e])).length = pre.length + q.length + 1 := by simp; omega
    have hrd : rd ((pre ++ (q ++ [e])).map (·.1) ++ x :: S) (pre.length + q.length) = .ok e.1 := by
      have := rd_append ((pre ++ q).map (·.1)) (x :: S) e.1
      rw [List.length_map, List.length_append] at this
      rw [← this]
      simp
    by_cases hc : e.1 > column
    · obtain ⟨q1, q2, h1, h2, h3⟩ := ih hq' e.1 (e.1 :: S) e.2 (e.2 :: T)
      refine ⟨q1, q2 ++ [e], by rw [h1, List.append_assoc], ?_, ?_⟩
      · have : q1 ++ (column, value) :: (q2 ++ [e]) = (q1 ++ (column, value) :: q2) ++ [e] := by simp
        rw [this]
        refine List.pairwise_append.2 ⟨h2, by simp, ?_⟩
        intro a ha b hb
        have : b = e := by simpa using hb
        subst this
        rcases List.mem_append.1 ha with ha | ha
        · exact hle a (by rw [h1]; exact List.mem_append_left _ ha)
        · rcases List.mem_cons.1 ha with rfl | ha
          · exact Nat.le_of_lt hc
          · exact hle a (by rw [h1]; exact List.mem_append_right _ ha)
      · have hs : Inserter.shift column pre.length (pre.length + (q ++ [e]).length)
            ((pre ++ (q ++ [e])).map (·.1) ++ x :: S) ((pre ++ (q ++ [e])).map (·.2) ++ y :: T) =
            Inserter.shift column pre.length (pre.length + q.length)
              ((pre ++ q).map (·.1) ++ e.1 :: e.1 :: S) ((pre ++ q).map (·.2) ++ e.2 :: e.2 :: T) := by
          rw [show pre.length + (q ++ [e]).length = pre.length + q.length + 1 by simp; omega]
          conv_lhs => unfold Inserter.shift
          rw [if_pos (by omega), hrd, Res.bind_ok, if_pos hc]
          have w1 := wr_append ((pre ++ (q ++ [e])).map (·.1)) S x e.1
          have w2 := wr_append ((pre ++ (q ++ [e])).map (·.2)) T y e.2
          rw [List.length_map, hlen] at w1 w2
          have r2 : rd ((pre ++ (q ++ [e])).map (·.2) ++ y :: T) (pre.length + q.length) = .ok e.2 := by
            have := rd_append ((pre ++ q).map (·.2)) (y :: T) e.2
            rw [List.length_map, List.length_append] at this
            rw [← this]
            simp
          rw [w1, Res.bind_ok, r2, Res.bind_ok, w2, Res.bind_ok]
          simp
        unfold shiftWrite at h3 ⊢
        rw [hs, h3]
        simp
    · refine ⟨q ++ [e], [], by simp, ?_, ?_⟩
      · refine List.pairwise_append.2 ⟨hq, by simp, ?_⟩
        intro a ha b hb
        have : b = (column, value) := by simpa using hb
        subst this
        have : a.1 ≤ e.1 := by
          rcases List.mem_append.1 ha with ha | ha
          · exact hle a ha
          · have : a = e := by simpa using ha
            rw [this]
        show a.1 ≤ column
        omega
      · have hs : Inserter.shift column pre.length (pre.length + (q ++ [e]).length)
            ((pre ++ (q ++ [e])).map (·.1) ++ x :: S) ((pre ++ (q ++ [e])).map (·.2) ++ y :: T) =
            .ok (pre.length + (q ++ [e]).length, (pre ++ (q ++ [e])).map (·.1) ++ x :: S,
              (pre ++ (q ++ [e])).map (·.2) ++ y :: T) := by
          rw [show pre.length + (q ++ [e]).length = pre.length + q.length + 1 by simp; omega]
          unfold Inserter.shift
          rw [if_pos (by omega), hrd, Res.bind_ok, if_neg hc]
        unfold shiftWrite
        rw [hs]
        have w1 := wr_append ((pre ++ (q ++ [e])).map (·.1)) S x column
        have w2 := wr_append ((pre ++ (q ++ [e])).map (·.2)) T y value
        rw [List.length_map, List.length_append] at w1 w2
        simp only [Res.bind_ok]
        rw [w1, Res.bind_ok, w2]
        simp

/-- Offset of row `i`. -/
def offset (rs : List (List (Nat × K))) (i : Nat) : Nat := (rs.take i).flatten.length

/-- The state of the inserter when the stored rows are `rs`. -/
structure Inv (R cap cols : Nat) (rs : List (List (Nat × K))) (s : Inserter K) : Prop where
  row : s.row = rs.length
  idx : s.idx = rs.flatten.length
  outerLen : s.outer.length = R + 1
  outer : ∀ i < rs.length, s.outer[i]? = some (offset rs i)
  data : ∃ S T, s.inner = rs.flatten.map (·.1) ++ S ∧ s.vals = rs.flatten.map (·.2) ++ T ∧
    rs.flatten.length + S.length = cap ∧ rs.flatten.length + T.length = cap
  sorted : ∀ r ∈ rs, ColSorted r
  colOk : ∀ r ∈ rs, ∀ e ∈ r, e.1 < cols

theorem startRow_inv {R cap cols : Nat} {rs : List (List (Nat × K))} {s : Inserter K} (h : Inv R cap cols rs s)
    (hR : rs.length ≤ R) : ∃ s', s.startRow = .ok s' ∧ Inv R cap cols (rs ++ [[]]) s' := by
  unfold Inserter.startRow
  have hl := h.outerLen
  rw [wr_ok _ _ _ (by rw [h.row]; omega)]
  refine ⟨_, rfl, ?_⟩
  obtain ⟨S, T, d1, d2, d3, d4⟩ := h.data
  refine ⟨by simp [h.row], by simp [h.idx], by simp [hl], ?_, ⟨S, T, by simp [d1], by simp [d2], by simpa using d3,
    by simpa using d4⟩, ?_, ?_⟩
  · intro i hi
    simp only [List.length_append, List.length_cons, List.length_nil] at hi
    unfold offset
    by_cases hir : i = rs.length
    · subst hir
      rw [h.row, List.getElem?_set_self (by omega), h.idx]
      simp
    · rw [List.getElem?_set_ne (by rw [h.row]; omega), h.outer i (by omega), List.take_append_of_le_length (by omega)]
      rfl
  · intro r hr
    rcases List.mem_append.1 hr with hr | hr
    · exact h.sorted r hr
    · have : r = [] := by simpa using hr
      subst this; exact List.Pairwise.nil
  · intro r hr e he
    rcases List.mem_append.1 hr with hr | hr
    · exact h.colOk r hr e he
    · have : r = [] := by simpa using hr
      subst this; exact absurd he (List.not_mem_nil)

theorem startRows_inv {R cap cols : Nat} (k : Nat) {rs : List (List (Nat × K))} {s : Inserter K}
    (h : Inv R cap cols rs s) (hR : rs.length + k ≤ R + 1) :
    ∃ s', s.startRows k = .ok s' ∧ Inv R cap cols (rs ++ List.replicate k []) s' := by
  induction k generalizing rs s with
  | zero => exact ⟨s, rfl, by simpa using h⟩
  | succ k ih =>
    obtain ⟨s1, e1, h1⟩ := startRow_inv h (by omega)
    obtain ⟨s2, e2, h2⟩ := ih h1 (by simp; omega)
    refine ⟨s2, ?_, ?_⟩
    · unfold Inserter.startRows; rw [e1, Res.bind_ok, e2]
    · rw [List.append_assoc] at h2
      simpa [List.replicate_succ] using h2

theorem insert_inv {R cap cols : Nat} {rs : List (List (Nat × K))} {s : Inserter K} (h : Inv R cap cols rs s)
    (hne : rs ≠ []) (c : Nat) (hc : c < cols) (v : K) (hcap : rs.flatten.length + 1 ≤ cap) :
    ∃ s' r', s.insert c v = .ok s' ∧ r'.Perm (rs.getLastD [] ++ [(c, v)]) ∧
      Inv R cap cols (rs.dropLast ++ [r']) s' := by
  rcases List.eq_nil_or_concat rs with h0 | ⟨ps, q, hrs⟩
  · exact absurd h0 hne
  rw [List.concat_eq_append] at hrs
  subst hrs
  obtain ⟨S, T, d1, d2, d3, d4⟩ := h.data
  have hsort := h.sorted q (by simp)
  cases S with
  | nil => simp at d3 hcap; omega
  | cons x S =>
    cases T with
    | nil => simp at d4 hcap; omega
    | cons y T =>
      obtain ⟨q1, q2, hq, hs, hw⟩ := shiftWrite_spec c v ps.flatten q hsort x S y T
      have hrow : s.row = ps.length + 1 := by rw [h.row]; simp
      have hfl : (ps ++ [q]).flatten = ps.flatten ++ q := by simp
      have hout : rd s.outer (s.row - 1) = .ok ps.flatten.length := by
        have := h.outer ps.length (by simp)
        unfold rd
        rw [show s.row - 1 = ps.length by omega, this]
        simp [offset]
      have hidx : s.idx = ps.flatten.length + q.length := by rw [h.idx, hfl, List.length_append]
      rw [hfl] at d1 d2 d3 d4
      have hins : s.insert c v = (shiftWrite c v ps.flatten.length (ps.flatten.length + q.length) s.inner s.vals >>=
          fun r => pure { s with idx := s.idx + 1, inner := r.1, vals := r.2 }) := by
        unfold Inserter.insert shiftWrite
        rw [if_neg (by omega), hout, Res.bind_ok, hidx]
        simp only [bind_assoc, Res.bind_ok, Res.pure_eq]
      rw [hins, d1, d2, hw, Res.bind_ok]
      refine ⟨_, q1 ++ (c, v) :: q2, rfl, ?_, ?_⟩
      · have : (ps ++ [q]).getLastD [] = q := by simp
        rw [this, hq]
        simpa using (List.perm_middle (a := (c, v)) (l₁ := q1) (l₂ := q2)).trans
          (List.perm_append_singleton (c, v) (q1 ++ q2)).symm
      · have hl : (q1 ++ (c, v) :: q2).length = q.length + 1 := by rw [hq]; simp; omega
        have hdl : (ps ++ [q]).dropLast = ps := by simp
        rw [hdl]
        have hfl' : (ps ++ [q1 ++ (c, v) :: q2]).flatten = ps.flatten ++ (q1 ++ (c, v) :: q2) := by simp
        have hfll : (ps ++ [q1 ++ (c, v) :: q2]).flatten.length = ps.flatten.length + q.length + 1 := by
          rw [hfl', List.length_append, hl]; omega
        refine ⟨by simp [hrow], by rw [hfll, hidx], h.outerLen, ?_, ⟨S, T, ?_, ?_, ?_, ?_⟩, ?_, ?_⟩
        · intro i hi
          have hi' : i < ps.length + 1 := by simpa using hi
          rw [h.outer i (by simpa using hi')]
          unfold offset
          rw [List.take_append_of_le_length (by omega), List.take_append_of_le_length (by omega)]
        · rw [hfl']
        · rw [hfl']
        · rw [hfll]; rw [List.length_append, List.length_cons] at d3; omega
        · rw [hfll]; rw [List.length_append, List.length_cons] at d4; omega
        · intro r hr
          rcases List.mem_append.1 hr with hr | hr
          · exact h.sorted r (List.mem_append_left _ hr)
          · have : r = _ := List.mem_singleton.1 hr
            subst this; exact hs
        · intro r hr e he
          rcases List.mem_append.1 hr with hr | hr
          · exact h.colOk r (List.mem_append_left _ hr) e he
          · have : r = _ := List.mem_singleton.1 hr
            subst this
            have hq' := h.colOk q (by simp)
            rcases List.mem_append.1 he with he | he
            · exact hq' e (by rw [hq]; exact List.mem_append_left _ he)
            · rcases List.mem_cons.1 he with rfl | he
              · exact hc
              · exact hq' e (by rw [hq]; exact List.mem_append_right _ he)

/-- Rows agree up to reordering within each row. -/
def RowsPerm (rs rows : List (List (Nat × K))) : Prop := List.Forall₂ (fun a b => a.Perm b) rs rows

theorem RowsPerm.flatten_length {rs rows : List (List (Nat × K))} (h : RowsPerm rs rows) :
    rs.flatten.length = rows.flatten.length := by
  induction h with
  | nil => rfl
  | cons h _ ih => simp only [List.flatten_cons, List.length_append, ih, h.length_eq]

theorem RowsPerm.append_refl {rs rows : List (List (Nat × K))} (h : RowsPerm rs rows) (x : List (List (Nat × K))) :
    RowsPerm (rs ++ x) (rows ++ x) := by
  induction h with
  | nil => exact List.forall₂_same.2 (fun _ _ => List.Perm.refl _)
  | cons h _ ih => exact List.Forall₂.cons h ih

theorem RowsPerm.snoc {ps qs : List (List (Nat × K))} {p q : List (Nat × K)} :
    RowsPerm (ps ++ [p]) (qs ++ [q]) ↔ RowsPerm ps qs ∧ p.Perm q := by
  constructor
  · intro h
    induction ps generalizing qs with
    | nil =>
      cases qs with
      | nil => cases h with | cons h _ => exact ⟨List.Forall₂.nil, h⟩
      | cons a qs =>
        have := List.Forall₂.length_eq h
        simp at this
    | cons a ps ih =>
      cases qs with
      | nil =>
        have := List.Forall₂.length_eq h
        simp at this
      | cons b qs =>
        cases h with
        | cons h1 h2 =>
          obtain ⟨i1, i2⟩ := ih h2
          exact ⟨List.Forall₂.cons h1 i1, i2⟩
  · rintro ⟨h, hp⟩
    induction h with
    | nil => exact List.Forall₂.cons hp List.Forall₂.nil
    | cons h1 _ ih => exact List.Forall₂.cons h1 ih

theorem run_ops {R cap cols : Nat} (ops : List (InsOp K)) (rows rs : List (List (Nat × K))) (s : Inserter K)
    (hw : Within R cap cols rows ops) (h : Inv R cap cols rs s) (hp : RowsPerm rs rows) (hR : rows.length ≤ R) :
    ∃ s' rs', ops.foldlM Inserter.run s = .ok s' ∧ Inv R cap cols rs' s' ∧ RowsPerm rs' (ops.foldl rowsOf rows) ∧
      (ops.foldl rowsOf rows).length ≤ R := by
  induction ops generalizing rows rs s with
  | nil => exact ⟨s, rs, rfl, h, hp, hR⟩
  | cons op ops ih =>
    obtain ⟨w1, w2, w3, w4⟩ := hw
    have hlen : rs.length = rows.length := List.Forall₂.length_eq hp
    have step : ∃ s1 rs1, s.run op = .ok s1 ∧ Inv R cap cols rs1 s1 ∧ RowsPerm rs1 (rowsOf rows op) := by
      cases op with
      | startRow =>
        obtain ⟨s1, e1, h1⟩ := startRow_inv h (by omega)
        exact ⟨s1, _, e1, h1, hp.append_refl _⟩
      | startRowAt r =>
        have : rows.length + (r + 1 - rows.length) ≤ R := by simpa [rowsOf] using w1
        obtain ⟨s1, e1, h1⟩ := startRows_inv (r + 1 - rows.length) h (by omega)
        refine ⟨s1, _, ?_, h1, hp.append_refl _⟩
        show s.startRows (r + 1 - s.row) = _
        rw [h.row, hlen, e1]
      | insert c v =>
        obtain ⟨hne, hc⟩ := w3
        rcases List.eq_nil_or_concat rows with h0 | ⟨qs, q, hrows⟩
        · exact absurd h0 hne
        rw [List.concat_eq_append] at hrows
        subst hrows
        rcases List.eq_nil_or_concat rs with h0 | ⟨ps, p, hrs⟩
        · subst h0; simp at hlen
        rw [List.concat_eq_append] at hrs
        subst hrs
        obtain ⟨hp1, hp2⟩ := RowsPerm.snoc.1 hp
        have hcap : (ps ++ [p]).flatten.length + 1 ≤ cap := by
          rw [hp.flatten_length]
          refine Nat.le_trans (Nat.le_of_eq ?_) w2
          simp [rowsOf]; omega
        obtain ⟨s1, r', e1, hr', h1⟩ := insert_inv h (by simp) c hc v hcap
        refine ⟨s1, _, e1, h1, ?_⟩
        have hd1 : (ps ++ [p]).dropLast = ps := by simp
        have hd2 : (qs ++ [q]).dropLast = qs := by simp
        have hl1 : (ps ++ [p]).getLastD [] = p := by simp
        have hl2 : (qs ++ [q]).getLastD [] = q := by simp
        unfold rowsOf
        rw [hd1, hd2, hl2]
        rw [hl1] at hr'
        exact RowsPerm.snoc.2 ⟨hp1, hr'.trans (hp2.append_right _)⟩
    obtain ⟨s1, rs1, e1, h1, hp1⟩ := step
    obtain ⟨s2, rs2, e2, h2⟩ := ih (rowsOf rows op) rs1 s1 w4 h1 hp1 w1
    exact ⟨s2, rs2, by rw [List.foldlM_cons, e1, Res.bind_ok, e2], h2⟩

theorem offset_mono (rs : List (List (Nat × K))) {i j : Nat} (h : i ≤ j) : offset rs i ≤ offset rs j := by
  unfold offset
  obtain ⟨d, rfl⟩ := Nat.exists_eq_add_of_le h
  rw [List.take_add, List.flatten_append, List.length_append]
  omega

/-- The compressed matrix whose rows are `rs`. -/
theorem compress_spec {R cap cols : Nat} {rs : List (List (Nat × K))} {s : Inserter K} (h : Inv R cap cols rs s)
    (hR : rs.length ≤ R) :
    ∃ m, s.compress cols = .ok m ∧ m.WF ∧ m.rows = R ∧ m.cols = cols ∧ m.inner.length = rs.flatten.length ∧
      ∀ i < R, m.row i = rs.getD i [] := by
  obtain ⟨s1, e1, h1⟩ := startRows_inv (R + 1 - rs.length) h (by omega)
  have hc : s.compress cols = .ok ⟨s1.outer.length - 1, cols, s1.outer, s1.inner.take s1.idx, s1.vals.take s1.idx⟩ := by
    unfold Inserter.compress Inserter.startRowAt
    rw [h.outerLen, Nat.add_sub_cancel, h.row, e1]
    rfl
  obtain ⟨S, T, d1, d2, d3, d4⟩ := h1.data
  generalize hrs' : rs ++ List.replicate (R + 1 - rs.length) [] = rs' at *
  have hl' : rs'.length = R + 1 := by rw [← hrs']; simp; omega
  have hi1 : s1.inner.take s1.idx = rs'.flatten.map (·.1) := by
    rw [d1, h1.idx]; exact List.take_left' (by rw [List.length_map])
  have hi2 : s1.vals.take s1.idx = rs'.flatten.map (·.2) := by
    rw [d2, h1.idx]; exact List.take_left' (by rw [List.length_map])
  have hfl : rs'.flatten = rs.flatten := by rw [← hrs']; simp
  have hol := h1.outerLen
  have hout : ∀ i ≤ R, s1.outer.getD i 0 = offset rs' i := by
    intro i hi
    rw [List.getD_eq_getElem?_getD, h1.outer i (by omega)]
    rfl
  have hzip : (rs'.flatten.map (·.1)).zip (rs'.flatten.map (·.2)) = rs'.flatten := by
    rw [List.zip_map']; exact List.map_id _
  refine ⟨_, hc, ?_, by simp [hol], rfl, by rw [hi1, hfl, List.length_map], ?_⟩
  · refine ⟨by simp only [hol]; omega, ?_, ?_, ?_, ?_, ?_⟩
    · rw [h1.outer 0 (by omega)]; simp [offset]
    · show s1.outer.Pairwise _
      refine List.pairwise_iff_getElem.2 (fun i j hi hj hij => ?_)
      have a := h1.outer i (by omega)
      have b := h1.outer j (by omega)
      rw [List.getElem?_eq_getElem hi] at a
      rw [List.getElem?_eq_getElem hj] at b
      rw [Option.some.inj a, Option.some.inj b]
      exact offset_mono rs' (Nat.le_of_lt hij)
    · intro o ho
      replace ho : o ∈ s1.outer := ho
      obtain ⟨i, hi, rfl⟩ := List.getElem_of_mem ho
      have a := h1.outer i (by omega)
      rw [List.getElem?_eq_getElem hi] at a
      rw [Option.some.inj a, hi1, List.length_map]
      have := offset_mono rs' (show i ≤ rs'.length by omega)
      refine Nat.le_trans this ?_
      unfold offset
      rw [List.take_length]
    · rw [hi1, hi2, List.length_map, List.length_map]
    · intro c hc'
      rw [hi1] at hc'
      obtain ⟨e, he, rfl⟩ := List.mem_map.1 hc'
      obtain ⟨r, hr, her⟩ := List.mem_flatten.1 he
      exact h1.colOk r hr e her
  · intro i hi
    unfold Raw.row
    simp only
    rw [hout i (by omega), hout (i + 1) (by omega), hi1, hi2, hzip]
    have hsplit : rs'.flatten = (rs'.take i).flatten ++ (rs'.drop i).flatten := by
      rw [← List.flatten_append, List.take_append_drop]
    have hcons : rs'.drop i = rs'[i] :: rs'.drop (i + 1) := List.drop_eq_getElem_cons (by omega)
    have hsucc : offset rs' (i + 1) = offset rs' i + rs'[i].length := by
      unfold offset
      rw [List.take_succ_eq_append_getElem (by omega), List.flatten_append, List.length_append]
      simp
    rw [hsplit, List.drop_left' (by rfl), hcons, List.flatten_cons, hsucc, Nat.add_sub_cancel_left,
      List.take_left' rfl]
    have : rs'.getD i [] = rs.getD i [] := by
      rw [← hrs']
      by_cases hlt : i < rs.length
      · rw [List.getD_append _ _ _ _ hlt]
      · rw [List.getD_append_right _ _ _ _ (by omega), List.getD_eq_default rs [] (by omega)]
        simp [List.getD_eq_getElem?_getD, List.getElem?_replicate]
        split <;> rfl
    rw [← this, List.getD_eq_getElem _ _ (by omega)]

end Verif.Numeric
