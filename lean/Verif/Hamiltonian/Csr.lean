import Verif.Hamiltonian.Model
import Mathlib.Algebra.BigOperators.Group.List.Basic

/-!
# The value of a sparse matrix, and what insertions do to it
-/

namespace Verif.Hamiltonian

open Verif.Hopping (Csr csrInsert rowInsert)

variable {K : Type}

/-- Specification: the coefficient of a CSR matrix at `(i, j)`: the sum of the entries stored there
(there is at most one when the columns of each row increase strictly, `Sorted`). -/
def coeff [AddMonoid K] (m : Csr K) (i j : Nat) : K :=
  (((m.getD i []).filter (fun e => e.1 = j)).map (·.2)).sum

/-- Columns increase strictly in every row and are below `n`; there are `n` rows. -/
def Sorted (n : Nat) (m : Csr K) : Prop :=
  m.length = n ∧ ∀ r ∈ m, (r.map (·.1)).Pairwise (· < ·) ∧ ∀ e ∈ r, e.1 < n

/-- The sum of the values sent to `(i, j)` by a list of calls. -/
def callSum [AddMonoid K] (calls : List (Call K)) (i j : Int) : K :=
  ((calls.filter (fun c => c.1 = i ∧ c.2.1 = j)).map (·.2.2)).sum

/-- A matrix is Hermitian. -/
def IsHermitian [AddMonoid K] [Star K] (m : Csr K) : Prop :=
  ∀ i j, coeff m i j = star (coeff m j i)

@[simp] theorem callSum_nil [AddMonoid K] (i j : Int) : callSum ([] : List (Call K)) i j = 0 := rfl

theorem callSum_append [AddMonoid K] (a b : List (Call K)) (i j : Int) :
    callSum (a ++ b) i j = callSum a i j + callSum b i j := by
  simp [callSum]

theorem callSum_cons [AddMonoid K] (c : Call K) (b : List (Call K)) (i j : Int) :
    callSum (c :: b) i j = (if c.1 = i ∧ c.2.1 = j then c.2.2 else 0) + callSum b i j := by
  unfold callSum
  by_cases h : c.1 = i ∧ c.2.1 = j
  · simp [List.filter_cons, h]
  · rw [List.filter_cons_of_neg (by simpa using h), if_neg h, zero_add]

theorem callSum_perm [AddCommMonoid K] {a b : List (Call K)} (h : a.Perm b) (i j : Int) :
    callSum a i j = callSum b i j := by
  unfold callSum
  exact ((h.filter _).map _).sum_eq

/-! ## Rows -/

section
variable [AddCommMonoid K]

/-- The coefficient of one row. -/
def rowCoeff (r : List (Nat × K)) (j : Nat) : K := ((r.filter (fun e => e.1 = j)).map (·.2)).sum

theorem rowCoeff_cons (e : Nat × K) (r : List (Nat × K)) (j : Nat) :
    rowCoeff (e :: r) j = (if e.1 = j then e.2 else 0) + rowCoeff r j := by
  unfold rowCoeff
  by_cases h : e.1 = j
  · simp [List.filter_cons, h]
  · rw [List.filter_cons_of_neg (by simpa using h), if_neg h, zero_add]

theorem rowCoeff_rowAdd (c : Nat) (v : K) (r : List (Nat × K)) (j : Nat) :
    rowCoeff (rowAdd c v r) j = rowCoeff r j + (if c = j then v else 0) := by
  induction r with
  | nil => rw [rowAdd, rowCoeff_cons]; simp [rowCoeff]
  | cons e r ih =>
    obtain ⟨d, w⟩ := e
    unfold rowAdd
    split
    · rw [rowCoeff_cons]; simp only; rw [add_comm]
    · split
      · rename_i h
        subst h
        rw [rowCoeff_cons, rowCoeff_cons]
        simp only
        by_cases h : c = j
        · simp only [h, if_true]; rw [add_right_comm]
        · simp [h]
      · rw [rowCoeff_cons, rowCoeff_cons, ih, add_assoc]

theorem rowAdd_keys (c : Nat) (v : K) (r : List (Nat × K)) (x : Nat) :
    x ∈ (rowAdd c v r).map (·.1) ↔ x = c ∨ x ∈ r.map (·.1) := by
  induction r with
  | nil => simp [rowAdd]
  | cons e r ih =>
    obtain ⟨d, w⟩ := e
    unfold rowAdd
    split
    · simp
    · split
      · rename_i h; subst h; simp
      · rw [List.map_cons, List.mem_cons, ih, List.map_cons, List.mem_cons]; tauto

theorem rowAdd_sorted (c : Nat) (v : K) (r : List (Nat × K)) (h : (r.map (·.1)).Pairwise (· < ·)) :
    ((rowAdd c v r).map (·.1)).Pairwise (· < ·) := by
  induction r with
  | nil => simp [rowAdd]
  | cons e r ih =>
    obtain ⟨d, w⟩ := e
    rw [List.map_cons, List.pairwise_cons] at h
    unfold rowAdd
    split
    · rename_i hc
      rw [List.map_cons, List.map_cons, List.pairwise_cons, List.pairwise_cons]
      refine ⟨?_, h⟩
      intro x hx
      rcases List.mem_cons.1 hx with rfl | hx
      · exact hc
      · exact Nat.lt_trans hc (h.1 x hx)
    · split
      · rw [List.map_cons, List.pairwise_cons]; exact h
      · rw [List.map_cons, List.pairwise_cons]
        refine ⟨?_, ih h.2⟩
        intro x hx
        rcases (rowAdd_keys c v r x).1 hx with rfl | hx
        · simp only; omega
        · exact h.1 x hx

omit [AddCommMonoid K] in
theorem rowInsert_ok [Add K] {c : Nat} {v : K} {r r' : List (Nat × K)} (h : rowInsert c v r = .ok r') :
    r' = rowAdd c v r ∧ r'.length = r.length + 1 := by
  induction r generalizing r' with
  | nil => simp only [rowInsert, Res.ok.injEq] at h; subst h; simp [rowAdd]
  | cons e r ih =>
    obtain ⟨d, w⟩ := e
    unfold rowInsert at h
    unfold rowAdd
    split at h
    · rename_i hc
      simp only [Res.ok.injEq] at h; subst h; simp [hc]
    · rename_i hc
      split at h
      · cases h
      · rename_i hn
        rcases hr : rowInsert c v r with x | _ | _
        · rw [hr] at h
          simp only [Res.bind_ok, Res.pure_eq, Res.ok.injEq] at h
          obtain ⟨h1, h2⟩ := ih hr
          subst h
          rw [if_neg hc, if_neg hn, h1]
          rw [h1] at h2
          simp [h2]
        · rw [hr] at h; cases h
        · rw [hr] at h; cases h

omit [AddCommMonoid K] in
theorem rowInsert_fresh (c : Nat) (v : K) (r : List (Nat × K)) (h : c ∉ r.map (·.1)) :
    ∃ r', rowInsert c v r = .ok r' := by
  induction r with
  | nil => exact ⟨_, rfl⟩
  | cons e r ih =>
    obtain ⟨d, w⟩ := e
    rw [List.map_cons, List.mem_cons, not_or] at h
    obtain ⟨r', hr⟩ := ih h.2
    unfold rowInsert
    split
    · exact ⟨_, rfl⟩
    · rw [if_neg h.1, hr]; exact ⟨_, rfl⟩

omit [AddCommMonoid K] in
theorem rowInsert_old (c : Nat) (v : K) (r : List (Nat × K)) (hs : (r.map (·.1)).Pairwise (· < ·))
    (h : c ∈ r.map (·.1)) : rowInsert c v r = .ub := by
  induction r with
  | nil => simp at h
  | cons e r ih =>
    obtain ⟨d, w⟩ := e
    rw [List.map_cons, List.pairwise_cons] at hs
    rw [List.map_cons, List.mem_cons] at h
    unfold rowInsert
    have hdc : d ≤ c := by
      rcases h with rfl | h
      · exact Nat.le_refl _
      · exact Nat.le_of_lt (hs.1 c h)
    rw [if_neg (by omega)]
    split
    · rfl
    · rename_i hn
      rw [ih hs.2 (h.resolve_left hn)]
      rfl

/-! ## Matrices -/

theorem coeff_eq (m : Csr K) (i j : Nat) : coeff m i j = rowCoeff (m.getD i []) j := rfl

theorem coeff_zero (n i j : Nat) : coeff (List.replicate n ([] : List (Nat × K))) i j = 0 := by
  rw [coeff_eq, List.getD_eq_getElem?_getD, List.getElem?_replicate]
  split <;> rfl

omit [AddCommMonoid K] in
theorem sorted_zero (n : Nat) : Sorted n (List.replicate n ([] : List (Nat × K))) := by
  refine ⟨by simp, ?_⟩
  intro r hr
  rw [List.eq_of_mem_replicate hr]
  simp

/-- Adding an element in range succeeds; outside it is undefined. -/
theorem addAt_spec {n : Nat} {m : Csr K} (hm : m.length = n) (i j : Int) (v : K) :
    (0 ≤ i ∧ i < n ∧ 0 ≤ j ∧ j < n ∧ ∃ m', addAt n m i j v = .ok m' ∧ m'.length = n ∧
      (Sorted n m → Sorted n m') ∧
      (∀ a b : Nat, coeff m' a b = coeff m a b + (if i = a ∧ j = b then v else 0)) ∧
      ∀ a : Nat, i ≠ a → m'[a]? = m[a]?) ∨
    (¬ (0 ≤ i ∧ i < n ∧ 0 ≤ j ∧ j < n) ∧ addAt n m i j v = .ub) := by
  by_cases h : 0 ≤ i ∧ i < n ∧ 0 ≤ j ∧ j < n
  · left
    obtain ⟨h1, h2, h3, h4⟩ := h
    refine ⟨h1, h2, h3, h4, ?_⟩
    obtain ⟨i, rfl⟩ := Int.eq_ofNat_of_zero_le h1
    obtain ⟨j, rfl⟩ := Int.eq_ofNat_of_zero_le h3
    have hi : i < m.length := by omega
    have hj : j < n := by omega
    refine ⟨m.set i (rowAdd j v m[i]), ?_, by simp [hm], ?_, ?_, ?_⟩
    · unfold addAt
      rw [if_neg (by omega)]
      simp only [Int.toNat_natCast, hj, if_true, List.getElem?_eq_getElem hi]
    · rintro ⟨-, hs⟩
      refine ⟨by simp [hm], ?_⟩
      intro r hr
      rcases List.mem_or_eq_of_mem_set hr with hr | rfl
      · exact hs r hr
      · have := hs _ (List.getElem_mem hi)
        refine ⟨rowAdd_sorted _ _ _ this.1, ?_⟩
        intro e he
        have hk := (rowAdd_keys j v m[i] e.1).1 (List.mem_map.2 ⟨e, he, rfl⟩)
        rcases hk with hk | hk
        · omega
        · obtain ⟨e', he', hx⟩ := List.mem_map.1 hk
          have := this.2 e' he'
          omega
    · intro a b
      rw [coeff_eq, coeff_eq, List.getD_eq_getElem?_getD, List.getD_eq_getElem?_getD,
        List.getElem?_set]
      by_cases ha : i = a
      · subst ha
        rw [if_pos rfl, if_pos hi, List.getElem?_eq_getElem hi]
        simp only [Option.getD_some, rowCoeff_rowAdd, Nat.cast_inj, true_and]
      · rw [if_neg ha, if_neg (by omega), add_zero]
    · intro a ha
      rw [List.getElem?_set, if_neg (by omega)]
  · right
    refine ⟨h, ?_⟩
    unfold addAt
    by_cases h1 : i < 0 ∨ j < 0
    · rw [if_pos h1]
    · rw [if_neg h1]
      by_cases h2 : j.toNat < n
      · rw [if_pos h2, List.getElem?_eq_none (by omega)]
      · rw [if_neg h2]

/-- Adding up a list of calls succeeds exactly when all are in range, and then every coefficient
grows by the sum of the values sent to it. -/
theorem addAll_spec {n : Nat} (calls : List (Call K)) {m : Csr K} (hm : m.length = n) :
    ((∀ c ∈ calls, 0 ≤ c.1 ∧ c.1 < n ∧ 0 ≤ c.2.1 ∧ c.2.1 < n) ∧
      ∃ m', addAll n calls m = .ok m' ∧ m'.length = n ∧ (Sorted n m → Sorted n m') ∧
        ∀ a b : Nat, coeff m' a b = coeff m a b + callSum calls a b) ∨
    (¬ (∀ c ∈ calls, 0 ≤ c.1 ∧ c.1 < n ∧ 0 ≤ c.2.1 ∧ c.2.1 < n) ∧ addAll n calls m = .ub) := by
  induction calls generalizing m with
  | nil => exact .inl ⟨by simp, m, rfl, hm, id, by simp⟩
  | cons c rest ih =>
    obtain ⟨i, j, v⟩ := c
    rcases addAt_spec hm i j v with ⟨h1, h2, h3, h4, m1, e1, l1, s1, c1, -⟩ | ⟨h1, h2⟩
    · rcases ih l1 with ⟨r1, m2, e2, l2, s2, c2⟩ | ⟨r1, e2⟩
      · left
        refine ⟨?_, m2, ?_, l2, fun h => s2 (s1 h), ?_⟩
        · intro c hc
          rcases List.mem_cons.1 hc with rfl | hc
          · exact ⟨h1, h2, h3, h4⟩
          · exact r1 c hc
        · simp only [addAll, e1, Res.bind_ok, e2]
        · intro a b
          rw [c2, c1, callSum_cons, add_assoc]
      · right
        refine ⟨fun h => r1 fun c hc => h c (List.mem_cons_of_mem _ hc), ?_⟩
        simp only [addAll, e1, Res.bind_ok, e2]
    · right
      refine ⟨fun h => h1 (h _ List.mem_cons_self), ?_⟩
      simp only [addAll, h2, Res.bind_ub]

theorem addAll_ok {n : Nat} {calls : List (Call K)} {m m' : Csr K} (hm : m.length = n)
    (h : addAll n calls m = .ok m') : m'.length = n ∧ (Sorted n m → Sorted n m') ∧
      ∀ a b : Nat, coeff m' a b = coeff m a b + callSum calls a b := by
  rcases addAll_spec calls hm with ⟨-, x, e, l, s, c⟩ | ⟨-, e⟩
  · rw [h] at e; cases e; exact ⟨l, s, c⟩
  · rw [h] at e; cases e

omit [AddCommMonoid K] in
/-- A successful insertion is an addition. -/
theorem insertAt_addAt [Add K] {n : Nat} {m m' : Csr K} {i j : Int} {v : K}
    (h : insertAt n m i j v = .ok m') : addAt n m i j v = .ok m' := by
  unfold insertAt at h
  unfold addAt
  split at h
  · cases h
  · rename_i h1
    rw [if_neg h1]
    unfold csrInsert at h
    split at h
    · rename_i h2
      rw [if_pos h2]
      rcases hr : m[i.toNat]? with _ | r
      · simp only [hr] at h; cases h
      · simp only [hr] at h
        rcases hi : rowInsert j.toNat v r with r' | _ | _
        · rw [hi] at h
          simp only [Res.bind_ok, Res.pure_eq, Res.ok.injEq] at h
          simp only
          rw [← h, (rowInsert_ok hi).1]
        · rw [hi] at h; cases h
        · rw [hi] at h; cases h
    · cases h

omit [AddCommMonoid K] in
theorem insertAll_addAll [Add K] {n : Nat} {calls : List (Call K)} {m m' : Csr K}
    (h : insertAll n calls m = .ok m') : addAll n calls m = .ok m' := by
  induction calls generalizing m with
  | nil => exact h
  | cons c rest ih =>
    obtain ⟨i, j, v⟩ := c
    unfold insertAll at h
    unfold addAll
    rcases hx : insertAt n m i j v with x | _ | _
    · rw [hx] at h
      rw [insertAt_addAt hx]
      exact ih h
    · rw [hx] at h; cases h
    · rw [hx] at h; cases h

theorem addAll_append {n : Nat} (a b : List (Call K)) (m : Csr K) :
    addAll n (a ++ b) m = (addAll n a m).bind fun m => addAll n b m := by
  induction a generalizing m with
  | nil => rfl
  | cons c rest ih =>
    obtain ⟨i, j, v⟩ := c
    simp only [List.cons_append, addAll]
    rcases addAt n m i j v with x | _ | _
    · simp only [Res.bind_ok]; exact ih x
    · rfl
    · rfl

omit [AddCommMonoid K] in
theorem insertAll_append {n : Nat} (a b : List (Call K)) (m : Csr K) :
    insertAll n (a ++ b) m = (insertAll n a m).bind fun m => insertAll n b m := by
  induction a generalizing m with
  | nil => rfl
  | cons c rest ih =>
    obtain ⟨i, j, v⟩ := c
    simp only [List.cons_append, insertAll]
    rcases insertAt n m i j v with x | _ | _
    · simp only [Res.bind_ok]; exact ih x
    · rfl
    · rfl

/-- Is an element stored at `(i, j)`? -/
def Stored (m : Csr K) (i j : Int) : Prop :=
  ∃ (a b : Nat) (r : List (Nat × K)), i = a ∧ j = b ∧ m[a]? = some r ∧ b ∈ r.map (·.1)

omit [AddCommMonoid K] in
/-- Inserting a new element in range succeeds. -/
theorem insertAt_fresh {n : Nat} {m : Csr K} (hm : m.length = n) (i j : Int) (v : K)
    (hi : 0 ≤ i ∧ i < n) (hj : 0 ≤ j ∧ j < n) (hf : ¬ Stored m i j) :
    ∃ m', insertAt n m i j v = .ok m' ∧ m'.length = n ∧
      (∀ a b : Int, Stored m' a b → Stored m a b ∨ (a = i ∧ b = j)) ∧
      ∀ a : Nat, (m'.getD a []).length = (m.getD a []).length + (if i = a then 1 else 0) := by
  obtain ⟨i, rfl⟩ := Int.eq_ofNat_of_zero_le hi.1
  obtain ⟨j, rfl⟩ := Int.eq_ofNat_of_zero_le hj.1
  have hil : i < m.length := by omega
  have hjl : j < n := by omega
  have hfr : j ∉ (m[i]).map (·.1) := fun hc =>
    hf ⟨i, j, m[i], rfl, rfl, List.getElem?_eq_getElem hil, hc⟩
  obtain ⟨r', hr⟩ := rowInsert_fresh j v m[i] hfr
  have hlen : r'.length = (m[i]).length + 1 := by
    clear hfr
    generalize m[i] = r at hr
    induction r generalizing r' with
    | nil => simp only [rowInsert, Res.ok.injEq] at hr; subst hr; rfl
    | cons e r ih =>
      obtain ⟨d, w⟩ := e
      unfold rowInsert at hr
      split at hr
      · simp only [Res.ok.injEq] at hr; subst hr; rfl
      · split at hr
        · cases hr
        · rcases hx : rowInsert j v r with x | _ | _
          · rw [hx] at hr
            simp only [Res.bind_ok, Res.pure_eq, Res.ok.injEq] at hr
            subst hr
            simp [ih _ hx]
          · rw [hx] at hr; cases hr
          · rw [hx] at hr; cases hr
  have hkeys : ∀ x, x ∈ r'.map (·.1) → x = j ∨ x ∈ (m[i]).map (·.1) := by
    clear hfr hlen
    generalize m[i] = r at hr
    induction r generalizing r' with
    | nil => simp only [rowInsert, Res.ok.injEq] at hr; subst hr; simp
    | cons e r ih =>
      obtain ⟨d, w⟩ := e
      unfold rowInsert at hr
      split at hr
      · simp only [Res.ok.injEq] at hr; subst hr; simp
      · split at hr
        · cases hr
        · rcases hx : rowInsert j v r with x | _ | _
          · rw [hx] at hr
            simp only [Res.bind_ok, Res.pure_eq, Res.ok.injEq] at hr
            subst hr
            intro y hy
            rw [List.map_cons, List.mem_cons] at hy
            rcases hy with hy | hy
            · right; rw [hy]; simp
            · rcases ih _ hx y hy with h | h
              · exact .inl h
              · right; rw [List.map_cons]; exact List.mem_cons_of_mem _ h
          · rw [hx] at hr; cases hr
          · rw [hx] at hr; cases hr
  refine ⟨m.set i r', ?_, by simp [hm], ?_, ?_⟩
  · unfold insertAt csrInsert
    rw [if_neg (by omega)]
    simp only [Int.toNat_natCast, hjl, if_true, List.getElem?_eq_getElem hil, hr, Res.bind_ok,
      Res.pure_eq]
  · rintro a b ⟨x, y, r, rfl, rfl, h1, h2⟩
    rw [List.getElem?_set] at h1
    by_cases hx : i = x
    · subst hx
      rw [if_pos rfl, if_pos hil] at h1
      simp only [Option.some.injEq] at h1
      subst h1
      rcases hkeys y h2 with rfl | h
      · exact .inr ⟨rfl, rfl⟩
      · exact .inl ⟨i, y, m[i], rfl, rfl, List.getElem?_eq_getElem hil, h⟩
    · rw [if_neg hx] at h1
      exact .inl ⟨x, y, r, rfl, rfl, h1, h2⟩
  · intro a
    rw [List.getD_eq_getElem?_getD, List.getD_eq_getElem?_getD, List.getElem?_set]
    by_cases hx : i = a
    · subst hx
      rw [if_pos rfl, if_pos hil, List.getElem?_eq_getElem hil]
      simp [hlen]
    · rw [if_neg hx, if_neg (by omega), Nat.add_zero]

omit [AddCommMonoid K] in
/-- Inserting distinct new elements in range succeeds, and every row gets one entry per element. -/
theorem insertAll_fresh {n : Nat} (calls : List (Call K)) {m : Csr K} (hm : m.length = n)
    (hr : ∀ c ∈ calls, (0 ≤ c.1 ∧ c.1 < n) ∧ 0 ≤ c.2.1 ∧ c.2.1 < n)
    (hd : (calls.map fun c => (c.1, c.2.1)).Nodup)
    (hf : ∀ c ∈ calls, ¬ Stored m c.1 c.2.1) :
    ∃ m', insertAll n calls m = .ok m' ∧ m'.length = n ∧
      (∀ a b : Int, Stored m' a b → Stored m a b ∨ ∃ c ∈ calls, a = c.1 ∧ b = c.2.1) ∧
      ∀ a : Nat, (m'.getD a []).length = (m.getD a []).length + calls.countP (fun c => c.1 = (a : Int)) := by
  induction calls generalizing m with
  | nil => exact ⟨m, rfl, hm, fun a b h => .inl h, by simp⟩
  | cons c rest ih =>
    obtain ⟨i, j, v⟩ := c
    have h0 := hr _ List.mem_cons_self
    obtain ⟨m1, e1, l1, s1, c1⟩ := insertAt_fresh hm i j v h0.1 h0.2 (hf _ List.mem_cons_self)
    rw [List.map_cons, List.nodup_cons] at hd
    obtain ⟨m2, e2, l2, s2, c2⟩ := ih l1 (fun c hc => hr c (List.mem_cons_of_mem _ hc)) hd.2 (by
      intro c hc hs
      rcases s1 _ _ hs with h | ⟨h1, h2⟩
      · exact hf c (List.mem_cons_of_mem _ hc) h
      · exact hd.1 (List.mem_map.2 ⟨c, hc, by simp [h1, h2]⟩))
    refine ⟨m2, ?_, l2, ?_, ?_⟩
    · simp only [insertAll, e1, Res.bind_ok, e2]
    · intro a b hs
      rcases s2 a b hs with h | ⟨c, hc, h⟩
      · rcases s1 a b h with h | h
        · exact .inl h
        · exact .inr ⟨_, List.mem_cons_self, h⟩
      · exact .inr ⟨c, List.mem_cons_of_mem _ hc, h⟩
    · intro a
      rw [c2, c1, List.countP_cons]
      by_cases hx : i = a
      · simp [hx]; omega
      · simp [hx]

omit [AddCommMonoid K] in
theorem not_stored_zero (n : Nat) (i j : Int) :
    ¬ Stored (List.replicate n ([] : List (Nat × K))) i j := by
  rintro ⟨a, b, r, -, -, h1, h2⟩
  rw [List.getElem?_replicate] at h1
  split at h1
  · simp only [Option.some.injEq] at h1; subst h1; simp at h2
  · cases h1

end

end Verif.Hamiltonian
