import Verif.Numeric.Lemmas
import Verif.Hamiltonian.Model

/-!
# Buffered and sliced loops over a sparse matrix
-/

namespace Verif.Numeric

variable {K : Type} {σ : Type}

/-- A stored element with its position in storage. -/
abbrev Item (K : Type) := (Nat × Nat × K) × Nat

/-- Specification: give the elements of a chunk to the callback, numbering them from `n`. -/
def visit (f : σ → Nat → Nat → K → Nat → Res σ) (n : Nat) (c : List (Nat × Nat × K)) (s : σ) : Res σ :=
  (c.zipIdx n).foldlM (fun s e => f s e.1.1 e.1.2.1 e.1.2.2 e.2) s

theorem bind_congr' {α β : Type} (x : Res α) (f g : α → Res β) (h : ∀ a, x = .ok a → f a = g a) :
    (x >>= f) = (x >>= g) := by
  cases x with
  | ok a => exact h a rfl
  | err e => rfl
  | ub => rfl

theorem visit_cons (f : σ → Nat → Nat → K → Nat → Res σ) (n : Nat) (e : Nat × Nat × K)
    (c : List (Nat × Nat × K)) (s : σ) :
    visit f n (e :: c) s = (f s e.1 e.2.1 e.2.2 n >>= fun s => visit f (n + 1) c s) := rfl

/-! ## The elements with their positions -/

theorem zipIdx_flatMap {α : Type} (c : Nat) (g : Nat → List α) (o : Nat → Nat) (h0 : o 0 = 0)
    (h : ∀ i < c, o (i + 1) = o i + (g i).length) :
    ((List.range c).flatMap g).zipIdx = (List.range c).flatMap (fun i => (g i).zipIdx (o i)) ∧
      ((List.range c).flatMap g).length = o c := by
  induction c with
  | zero => exact ⟨rfl, h0.symm⟩
  | succ c ih =>
    obtain ⟨h1, h2⟩ := ih (fun i hi => h i (by omega))
    rw [List.range_succ, List.flatMap_append, List.flatMap_append, List.zipIdx_append, h1, h2]
    refine ⟨by simp, ?_⟩
    rw [List.length_append, h2, h c (by omega)]
    simp

namespace Raw.WF
variable {m : Raw K} (h : m.WF)
include h

theorem entries_zip : m.entries.zipIdx = (List.range m.rows).flatMap
      (fun i => ((m.row i).map fun e => (i, e.1, e.2)).zipIdx (m.outer.getD i 0)) ∧
    m.entries.length = m.outer.getD m.rows 0 := by
  refine zipIdx_flatMap m.rows _ (fun i => m.outer.getD i 0) h.outer_zero (fun i hi => ?_)
  rw [List.length_map, h.row_length i hi]
  have := h.outer_mono (Nat.le_add_right i 1) hi
  show m.outer.getD (i + 1) 0 = m.outer.getD i 0 + _
  omega

/-- A loop over a part of a row that keeps track of positions. -/
theorem seg_loop (i lo cnt : Nat) (hlo : lo + cnt ≤ m.inner.length)
    (f : σ → Nat → Nat → K → Nat → Res σ) (s : σ) :
    (List.range' lo cnt).foldlM
      (fun s k => rd m.inner k >>= fun c => rd m.vals k >>= fun v => f s i c v k) s =
    (((((m.inner.zip m.vals).drop lo).take cnt).map (fun (e : Nat × K) => (i, e.1, e.2))).zipIdx lo).foldlM
      (fun s (x : Item K) => f s x.1.1 x.1.2.1 x.1.2.2 x.2) s := by
  have h3 := h.len
  rw [foldlM_congr _ (fun s k => rd (m.inner.zip m.vals) k >>= fun e => f s i e.1 e.2 k) _ _
    (fun k _ s => (rd_zip m.inner m.vals h3 k (fun c v => f s i c v k)).symm),
    foldlM_range'_rd (m.inner.zip m.vals) (fun s k e => f s i e.1 e.2 k) lo cnt s
      (by rw [List.length_zip]; omega), List.zipIdx_map, List.foldlM_map]
  rfl

/-- Element `k` of the entries is the `k`-th stored element, in the row that contains it. -/
theorem entries_get (i k : Nat) (hi : i < m.rows) (h1 : m.outer.getD i 0 ≤ k) (h2 : k < m.outer.getD (i + 1) 0) :
    ∃ hk : k < (m.inner.zip m.vals).length,
      m.entries.zipIdx[k]? = some ((i, (m.inner.zip m.vals)[k].1, (m.inner.zip m.vals)[k].2), k) := by
  have hb := h.outer_le (i + 1)
  have hk : k < (m.inner.zip m.vals).length := by rw [List.length_zip, ← h.len]; omega
  refine ⟨hk, ?_⟩
  have aux : ∀ c ≤ m.rows, i < c → (((List.range c).flatMap fun i => (m.row i).map fun e => (i, e.1, e.2))[k]?) =
      some (i, (m.inner.zip m.vals)[k].1, (m.inner.zip m.vals)[k].2) := by
    intro c
    induction c with
    | zero => intro _ hc; omega
    | succ c ih =>
      intro hc hic
      have hlen := (zipIdx_flatMap c (fun i => (m.row i).map fun e => (i, e.1, e.2)) (fun i => m.outer.getD i 0)
        h.outer_zero (fun i hi => by
          rw [List.length_map, h.row_length i (by omega)]
          have := h.outer_mono (Nat.le_add_right i 1) (show i + 1 ≤ m.rows by omega)
          show m.outer.getD (i + 1) 0 = m.outer.getD i 0 + _
          omega)).2
      rw [List.range_succ, List.flatMap_append]
      by_cases hlt : i < c
      · have hle := h.outer_mono (show i + 1 ≤ c by omega) (by omega)
        rw [List.getElem?_append_left (by rw [hlen]; show k < m.outer.getD c 0; omega)]
        exact ih (by omega) hlt
      · have : i = c := by omega
        subst this
        rw [List.getElem?_append_right (by rw [hlen]; exact h1), hlen]
        simp only [List.flatMap_cons, List.flatMap_nil, List.append_nil, List.getElem?_map]
        unfold Raw.row
        rw [List.getElem?_take_of_lt (by omega), List.getElem?_drop,
          show m.outer.getD i 0 + (k - m.outer.getD i 0) = k by omega, List.getElem?_eq_getElem hk]
        rfl
  have := aux m.rows (Nat.le_refl _) hi
  have e : m.entries = (List.range m.rows).flatMap fun i => (m.row i).map fun e => (i, e.1, e.2) := rfl
  rw [List.getElem?_zipIdx, e, this]
  simp

/-- A contiguous part of a row, seen in the list of entries. -/
theorem entries_seg (i lo cnt : Nat) (hi : i < m.rows) (h1 : m.outer.getD i 0 ≤ lo)
    (h2 : lo + cnt ≤ m.outer.getD (i + 1) 0) :
    ((((m.inner.zip m.vals).drop lo).take cnt).map (fun e => (i, e.1, e.2))).zipIdx lo =
      (m.entries.zipIdx.drop lo).take cnt := by
  have hb := h.outer_le (i + 1)
  apply List.ext_getElem?
  intro k
  by_cases hk : k < cnt
  · obtain ⟨hk', e⟩ := h.entries_get i (lo + k) hi (by omega) (by omega)
    rw [List.getElem?_take_of_lt hk, List.getElem?_drop, e, List.getElem?_zipIdx, List.getElem?_map,
      List.getElem?_take_of_lt hk, List.getElem?_drop, List.getElem?_eq_getElem hk']
    rfl
  · rw [List.getElem?_eq_none, List.getElem?_eq_none]
    · simp; omega
    · simp; omega

end Raw.WF

/-! ## Buffers -/

/-- One step of the buffered loop, on a stored element. -/
def bufItem (size : Nat) (f : σ → Nat → Nat → K → Nat → Res σ) (p : σ → Nat → Nat → Nat → Res σ)
    (b : Buf σ) (x : Item K) : Res (Buf σ) := do
  let b ← flush size p x.1.1 x.2 b
  let s ← f b.st x.1.1 x.1.2.1 x.1.2.2 b.n
  return { b with st := s, n := b.n + 1 }

theorem bufferedForEach_items {m : Raw K} (h : m.WF) (size : Nat) (f : σ → Nat → Nat → K → Nat → Res σ)
    (p : σ → Nat → Nat → Nat → Res σ) (s : σ) :
    bufferedForEach m size f p s =
      (m.entries.zipIdx.foldlM (bufItem size f p) ⟨s, 0, 0, 0⟩ >>= fun b => p b.st b.prevOuter b.prevIdx b.n) := by
  unfold bufferedForEach
  rw [h.outer_at 0 (Nat.zero_le _), Res.bind_ok, h.outer_zero, h.entries_zip.1, foldlM_flatMap]
  congr 1
  refine foldlM_congr _ _ _ _ (fun i hi b => ?_)
  have hi := List.mem_range.1 hi
  rw [h.outer_at i (by omega), Res.bind_ok, h.outer_at (i + 1) hi, Res.bind_ok]
  have hb := h.outer_le (i + 1)
  have hm := h.outer_mono (Nat.le_add_right i 1) hi
  have e := h.seg_loop i (m.outer.getD i 0) (m.outer.getD (i + 1) 0 - m.outer.getD i 0) (by omega)
    (fun b r c v k => bufItem size f p b ((r, c, v), k)) b
  refine Eq.trans ?_ e
  refine foldlM_congr _ _ _ _ (fun k hk b => ?_)
  unfold bufStep bufItem
  have hk := (range'_mem (m.outer.getD i 0) (m.outer.getD (i + 1) 0) k).1 hk
  have h3 := h.len
  rw [rd_ok m.inner k (by omega), rd_ok m.vals k (by omega)]
  rfl

/-- The chunks of a buffered loop: first row, first position and elements. -/
structure Chunk (K : Type) where
  outer : Nat
  idx : Nat
  items : List (Item K)

/-- Specification: handle one chunk: visit its elements, then process the buffer. -/
def runChunk (f : σ → Nat → Nat → K → Nat → Res σ) (p : σ → Nat → Nat → Nat → Res σ) (s : σ) (c : Chunk K) :
    Res σ := do
  let s ← visit f 0 (c.items.map (·.1)) s
  p s c.outer c.idx c.items.length

theorem buffered_chunks (size : Nat) (hsize : 0 < size) (f : σ → Nat → Nat → K → Nat → Res σ)
    (p : σ → Nat → Nat → Nat → Res σ) (L : List (Item K)) (n o i : Nat) (hn : n ≤ size) :
    ∃ (t : List (Item K)) (cs : List (Chunk K)),
      t ++ (cs.map (·.items)).flatten = L ∧ n + t.length ≤ size ∧ (cs ≠ [] → n + t.length = size) ∧
      (∀ c ∈ cs.dropLast, c.items.length = size) ∧
      (∀ c ∈ cs, c.items.length ≤ size ∧ ∃ x, c.items.head? = some x ∧ c.outer = x.1.1 ∧ c.idx = x.2) ∧
      ∀ s, (L.foldlM (bufItem size f p) ⟨s, n, o, i⟩ >>= fun b => p b.st b.prevOuter b.prevIdx b.n) =
        (visit f n (t.map (·.1)) s >>= fun s => p s o i (n + t.length) >>= fun s => cs.foldlM (runChunk f p) s) := by
  induction L generalizing n o i with
  | nil =>
    refine ⟨[], [], rfl, by simpa using hn, by simp, by simp, by simp, fun s => ?_⟩
    simp only [List.foldlM_nil, List.map_nil, visit, List.zipIdx_nil, Res.pure_eq, Res.bind_ok, List.length_nil,
      Nat.add_zero]
    cases p s o i n <;> rfl
  | cons x L ih =>
    by_cases hns : n = size
    · subst hns
      obtain ⟨t, cs, h1, h2, h3, h4, h5, h6⟩ := ih 1 x.1.1 x.2 hsize
      refine ⟨[], ⟨x.1.1, x.2, x :: t⟩ :: cs, ?_, by simp, by simp, ?_, ?_, ?_⟩
      · simp [← h1]
      · intro c hc
        cases cs with
        | nil => simp at hc
        | cons c' cs' =>
          rw [List.dropLast_cons_cons] at hc
          rcases List.mem_cons.1 hc with rfl | hc
          · have := h3 (by simp)
            simp; omega
          · exact h4 c hc
      · intro c hc
        rcases List.mem_cons.1 hc with rfl | hc
        · exact ⟨by simp; omega, x, rfl, rfl, rfl⟩
        · exact h5 c hc
      · intro s
        rw [List.foldlM_cons]
        simp only [bufItem, flush, if_true, bind_assoc, Res.bind_ok, Res.pure_eq, List.map_nil, visit,
          List.zipIdx_nil, List.foldlM_nil, List.length_nil, Nat.add_zero, List.foldlM_cons, runChunk]
        refine bind_congr' _ _ _ (fun s1 _ => ?_)
        rw [List.map_cons, List.zipIdx_cons, List.foldlM_cons, bind_assoc]
        refine bind_congr' _ _ _ (fun s2 _ => ?_)
        have := h6 s2
        simp only [Nat.zero_add, bind_assoc, List.length_cons]
        rw [this]
        unfold visit
        simp only [bind_assoc, Nat.add_comm 1 t.length]
    · obtain ⟨t, cs, h1, h2, h3, h4, h5, h6⟩ := ih (n + 1) o i (by omega)
      refine ⟨x :: t, cs, by simp [← h1], by simp; omega, fun h => by have := h3 h; simp; omega, h4, h5, ?_⟩
      intro s
      rw [List.foldlM_cons]
      simp only [bufItem, flush, if_neg hns, bind_assoc, Res.bind_ok, Res.pure_eq, List.map_cons, visit_cons]
      refine bind_congr' _ _ _ (fun s1 _ => ?_)
      rw [h6 s1, List.length_cons, Nat.add_right_comm, Nat.add_assoc]

/-! ## Slices -/

/-- One step of the sliced loop, on a stored element. -/
def sliceItem (size : Nat) (f : σ → Nat → Nat → K → Nat → Res σ) (b : Sl σ) (x : Item K) : Res (Sl σ) :=
  if b.done then .ok b
  else if b.n = size then .ok { b with done := true }
  else do
    let s ← f b.st x.1.1 x.1.2.1 x.1.2.2 b.n
    return ⟨s, b.n + 1, x.2 + 1, false⟩

theorem sliceItem_done (size : Nat) (f : σ → Nat → Nat → K → Nat → Res σ) (L : List (Item K)) (b : Sl σ)
    (hb : b.done = true) : L.foldlM (sliceItem size f) b = .ok b := by
  induction L with
  | nil => rfl
  | cons x L ih =>
    rw [List.foldlM_cons]
    have : sliceItem size f b x = .ok b := by unfold sliceItem; rw [if_pos hb]
    rw [this]
    exact ih

theorem sliceStep_done (m : Raw K) (size : Nat) (f : σ → Nat → Nat → K → Nat → Res σ) (row : Nat) (L : List Nat)
    (b : Sl σ) (hb : b.done = true) : L.foldlM (fun b k => sliceStep m size f row k b) b = .ok b := by
  induction L with
  | nil => rfl
  | cons x L ih =>
    rw [List.foldlM_cons]
    have : sliceStep m size f row x b = .ok b := by unfold sliceStep; rw [if_pos hb]
    rw [this]
    exact ih

theorem sliceItem_idx (size : Nat) (f : σ → Nat → Nat → K → Nat → Res σ) (ys : List (Nat × Nat × K)) (b b' : Sl σ)
    (h : (ys.zipIdx b.idx).foldlM (sliceItem size f) b = .ok b') : b'.done = true ∨ b'.idx = b.idx + ys.length := by
  induction ys generalizing b with
  | nil =>
    have : b = b' := by simpa using h
    subst this; exact Or.inr rfl
  | cons y ys ih =>
    rw [List.zipIdx_cons, List.foldlM_cons] at h
    by_cases hd : b.done = true
    · have e : sliceItem size f b (y, b.idx) = .ok b := by unfold sliceItem; rw [if_pos hd]
      rw [e, Res.bind_ok, sliceItem_done size f _ b hd] at h
      rw [← Res.ok.inj h]; exact Or.inl hd
    · by_cases hs : b.n = size
      · have e : sliceItem size f b (y, b.idx) = .ok { b with done := true } := by
          unfold sliceItem; rw [if_neg hd, if_pos hs]
        rw [e, Res.bind_ok, sliceItem_done size f _ _ rfl] at h
        rw [← Res.ok.inj h]; exact Or.inl rfl
      · have e : sliceItem size f b (y, b.idx) =
            (f b.st y.1 y.2.1 y.2.2 b.n >>= fun s => pure ⟨s, b.n + 1, b.idx + 1, false⟩) := by
          unfold sliceItem; rw [if_neg hd, if_neg hs]
        rw [e] at h
        rcases hf : f b.st y.1 y.2.1 y.2.2 b.n with s | _ | _
        · rw [hf] at h
          simp only [Res.bind_ok, Res.pure_eq] at h
          rcases ih ⟨s, b.n + 1, b.idx + 1, false⟩ h with h | h
          · exact Or.inl h
          · right; rw [h, List.length_cons]; simp only; omega
        · rw [hf] at h; exact absurd h (by intro h; cases h)
        · rw [hf] at h; exact absurd h (by intro h; cases h)

theorem sliceItem_visit (size : Nat) (f : σ → Nat → Nat → K → Nat → Res σ) (L : List (Item K)) (b : Sl σ)
    (hd : b.done = false) (hn : b.n ≤ size) :
    (L.foldlM (sliceItem size f) b >>= fun b => pure b.st) = visit f b.n ((L.take (size - b.n)).map (·.1)) b.st := by
  induction L generalizing b with
  | nil => simp [visit]
  | cons x L ih =>
    rw [List.foldlM_cons]
    by_cases hs : b.n = size
    · have e : sliceItem size f b x = .ok { b with done := true } := by
        unfold sliceItem; rw [if_neg (by simp [hd]), if_pos hs]
      rw [e, Res.bind_ok, sliceItem_done size f _ _ rfl, hs, Nat.sub_self]
      rfl
    · have e : sliceItem size f b x =
          (f b.st x.1.1 x.1.2.1 x.1.2.2 b.n >>= fun s => pure ⟨s, b.n + 1, x.2 + 1, false⟩) := by
        unfold sliceItem; rw [if_neg (by simp [hd]), if_neg hs]
      obtain ⟨d, hdd⟩ : ∃ d, size - b.n = d + 1 := ⟨size - b.n - 1, by omega⟩
      rw [e, hdd, List.take_succ_cons, List.map_cons, visit_cons]
      simp only [bind_assoc, Res.bind_ok, Res.pure_eq]
      refine bind_congr' _ _ _ (fun s _ => ?_)
      have := ih ⟨s, b.n + 1, x.2 + 1, false⟩ rfl (by simp only; omega)
      simp only [Res.pure_eq] at this
      rw [this]
      simp only [show size - (b.n + 1) = d by omega]

theorem sliceRows {m : Raw K} (h : m.WF) (size : Nat) (f : σ → Nat → Nat → K → Nat → Res σ) (cnt r : Nat)
    (hr : r + cnt = m.rows) (b : Sl σ)
    (hb : b.done = true ∨ (m.outer.getD r 0 ≤ b.idx ∧ (0 < cnt → b.idx ≤ m.outer.getD (r + 1) 0))) :
    (List.range' r cnt).foldlM (fun b row => do
      let hi ← rd m.outer (row + 1)
      (List.range' b.idx (hi - b.idx)).foldlM (fun b k => sliceStep m size f row k b) b) b =
    (m.entries.zipIdx.drop b.idx).foldlM (sliceItem size f) b := by
  induction cnt generalizing r b with
  | zero =>
    rcases hb with hb | ⟨hb, _⟩
    · rw [sliceItem_done size f _ b hb]; rfl
    · have hr : r = m.rows := by omega
      subst hr
      rw [List.drop_of_length_le (by rw [List.length_zipIdx, h.entries_zip.2]; exact hb)]
      rfl
  | succ cnt ih =>
    rw [List.range'_succ, List.foldlM_cons, h.outer_at (r + 1) (by omega), Res.bind_ok]
    rcases hb with hb | ⟨hb1, hb2⟩
    · rw [sliceStep_done m size f r _ b hb, Res.bind_ok, ih (r + 1) (by omega) b (Or.inl hb)]
    · have hb2 := hb2 (by omega)
      have hbnd := h.outer_le (r + 1)
      have hseg := h.seg_loop r b.idx (m.outer.getD (r + 1) 0 - b.idx) (by omega)
        (fun b r c v k => sliceItem size f b ((r, c, v), k)) b
      have hstep : (List.range' b.idx (m.outer.getD (r + 1) 0 - b.idx)).foldlM
            (fun b k => sliceStep m size f r k b) b =
          ((m.entries.zipIdx.drop b.idx).take (m.outer.getD (r + 1) 0 - b.idx)).foldlM (sliceItem size f) b := by
        rw [← h.entries_seg r b.idx _ (by omega) hb1 (by omega)]
        refine Eq.trans ?_ hseg
        refine foldlM_congr _ _ _ _ (fun k hk b' => ?_)
        have hk := (range'_mem _ _ k).1 hk
        have h3 := h.len
        unfold sliceStep sliceItem
        rw [rd_ok m.inner k (by omega), rd_ok m.vals k (by omega)]
        rfl
      rw [hstep]
      conv_rhs => rw [← List.take_append_drop (m.outer.getD (r + 1) 0 - b.idx) (m.entries.zipIdx.drop b.idx),
        List.foldlM_append]
      refine bind_congr' _ _ _ (fun b' hb' => ?_)
      have hx : b'.done = true ∨ b'.idx = m.outer.getD (r + 1) 0 := by
        rw [← h.entries_seg r b.idx _ (by omega) hb1 (by omega)] at hb'
        rcases sliceItem_idx size f _ b b' hb' with hx | hx
        · exact Or.inl hx
        · right
          have h3 := h.len
          rw [hx, List.length_map, List.length_take, List.length_drop, List.length_zip]; omega
      rw [List.drop_drop, show b.idx + (m.outer.getD (r + 1) 0 - b.idx) = m.outer.getD (r + 1) 0 by omega]
      rcases hx with hx | hx
      · rw [ih (r + 1) (by omega) b' (Or.inl hx), sliceItem_done size f _ b' hx, sliceItem_done size f _ b' hx]
      · rw [ih (r + 1) (by omega) b' (Or.inr ⟨by omega, fun hc => by
          rw [hx]; exact h.outer_mono (Nat.le_add_right (r + 1) 1) (by omega)⟩), hx]

theorem sliceForEach_eq {m : Raw K} (h : m.WF) (o i size : Nat) (ho : o ≤ m.rows) (h1 : m.outer.getD o 0 ≤ i)
    (h2 : o < m.rows → i ≤ m.outer.getD (o + 1) 0) (f : σ → Nat → Nat → K → Nat → Res σ) (s : σ) :
    sliceForEach m o i size f s = visit f 0 ((m.entries.drop i).take size) s := by
  unfold sliceForEach
  rw [sliceRows h size f (m.rows - o) o (by omega) ⟨s, 0, i, false⟩ (Or.inr ⟨h1, fun hc => h2 (by omega)⟩)]
  have := sliceItem_visit size f (m.entries.zipIdx.drop i) ⟨s, 0, i, false⟩ rfl (Nat.zero_le _)
  rw [this]
  congr 1
  rw [List.map_take, List.map_drop]
  simp

end Verif.Numeric
