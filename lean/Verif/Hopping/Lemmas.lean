import Verif.Hopping.Spec
import Verif.Sublat.Lemmas

namespace Verif.Hopping

open Spec

/-! ### sort and unique -/

instance : Std.Total COO.le := ⟨fun a b => by unfold COO.le; omega⟩
instance : IsTrans COO COO.le := ⟨fun a b c => by unfold COO.le; omega⟩

theorem COO.le_antisymm (a b : COO) (h₁ : COO.le a b) (h₂ : COO.le b a) : a = b := by
  cases a; cases b
  simp only [COO.le] at h₁ h₂
  simp only [COO.mk.injEq]
  omega

theorem COO.lt_of_le_of_ne (a b : COO) (h₁ : COO.le a b) (h₂ : a ≠ b) : Lt a b := by
  cases a; cases b
  simp only [COO.le] at h₁
  simp only [Lt]
  simp only [ne_eq, COO.mk.injEq] at h₂
  omega

theorem mem_adjUnique {α : Type} [DecidableEq α] (l : List α) (x : α) :
    x ∈ Sublat.adjUnique l ↔ x ∈ l := by
  fun_induction Sublat.adjUnique l with
  | case1 => simp
  | case2 => simp
  | case3 y rest ih => rw [ih]; simp
  | case4 a y rest h ih => simp only [List.mem_cons, ih]

theorem adjUnique_head {α : Type} [DecidableEq α] (x : α) (l : List α) :
    ∃ t, Sublat.adjUnique (x :: l) = x :: t := by
  induction l with
  | nil => exact ⟨[], rfl⟩
  | cons y rest ih =>
    by_cases h : x = y
    · subst h
      obtain ⟨t, ht⟩ := ih
      exact ⟨t, by simp [Sublat.adjUnique, ht]⟩
    · exact ⟨_, by rw [Sublat.adjUnique, if_neg h]⟩

theorem pairwise_adjUnique (l : List COO) (h : l.Pairwise COO.le) :
    (Sublat.adjUnique l).Pairwise Lt := by
  fun_induction Sublat.adjUnique l with
  | case1 => simp
  | case2 => simp
  | case3 y rest ih => exact ih (List.pairwise_cons.1 h).2
  | case4 a y rest hne ih =>
    have h1 := List.pairwise_cons.1 h
    refine List.pairwise_cons.2 ⟨?_, ih h1.2⟩
    intro z hz
    rw [mem_adjUnique] at hz
    apply COO.lt_of_le_of_ne _ _ (h1.1 z hz)
    intro hc
    subst hc
    rcases List.mem_cons.1 hz with hz | hz
    · exact hne hz
    · have h2 := (List.pairwise_cons.1 h1.2).1 a hz
      exact hne (COO.le_antisymm _ _ (h1.1 y (by simp)) h2)

theorem eq_of_pairwise_lt (l₁ l₂ : List COO) (h₁ : l₁.Pairwise Lt) (h₂ : l₂.Pairwise Lt)
    (h : ∀ x, x ∈ l₁ ↔ x ∈ l₂) : l₁ = l₂ := by
  induction l₁ generalizing l₂ with
  | nil =>
    cases l₂ with
    | nil => rfl
    | cons y l₂ => exact absurd ((h y).2 (by simp)) (by simp)
  | cons x l₁ ih =>
    cases l₂ with
    | nil => exact absurd ((h x).1 (by simp)) (by simp)
    | cons y l₂ =>
      have p₁ := List.pairwise_cons.1 h₁
      have p₂ := List.pairwise_cons.1 h₂
      have irr : ∀ a : COO, ¬ Lt a a := by intro a; simp [Lt]
      have asym : ∀ a b : COO, Lt a b → Lt b a → False := by intro a b; simp only [Lt]; omega
      have hxy : x = y := by
        rcases List.mem_cons.1 ((h x).1 (by simp)) with hx | hx
        · exact hx
        · rcases List.mem_cons.1 ((h y).2 (by simp)) with hy | hy
          · exact hy.symm
          · exact (asym _ _ (p₁.1 y hy) (p₂.1 x hx)).elim
      subst hxy
      rw [ih l₂ p₁.2 p₂.2]
      intro z
      constructor
      · intro hz
        rcases List.mem_cons.1 ((h z).1 (by simp [hz])) with hz' | hz'
        · subst hz'; exact (irr _ (p₁.1 z hz)).elim
        · exact hz'
      · intro hz
        rcases List.mem_cons.1 ((h z).2 (by simp [hz])) with hz' | hz'
        · subst hz'; exact (irr _ (p₂.1 z hz)).elim
        · exact hz'

namespace HoppingBlocks

theorem orient_eq (m n : Nat) : orient m n = ⟨min m n, max m n⟩ := by
  unfold orient
  split
  · rw [Nat.min_eq_right (by omega), Nat.max_eq_left (by omega)]
  · rw [Nat.min_eq_left (by omega), Nat.max_eq_right (by omega)]

theorem orient_comm (m n : Nat) : orient m n = orient n m := by
  rw [orient_eq, orient_eq, Nat.min_comm, Nat.max_comm]

theorem mem_zipWith_orient (rows cols : List Nat) (c : COO) :
    c ∈ List.zipWith orient rows cols ↔
      ∃ i m n : Nat, rows[i]? = some m ∧ cols[i]? = some n ∧ c = ⟨min m n, max m n⟩ := by
  induction rows generalizing cols with
  | nil => simp
  | cons r rows ih =>
    cases cols with
    | nil => simp
    | cons k cols =>
      simp only [List.zipWith_cons_cons, List.mem_cons, ih]
      constructor
      · rintro (h | ⟨i, m, n, h1, h2, h3⟩)
        · exact ⟨0, r, k, by simp, by simp, by rw [h, orient_eq]⟩
        · exact ⟨i + 1, m, n, by simpa using h1, by simpa using h2, h3⟩
      · rintro ⟨i, m, n, h1, h2, h3⟩
        cases i with
        | zero => left; simp at h1 h2; subst h1; subst h2; rw [h3, orient_eq]
        | succ i => right; exact ⟨i, m, n, by simpa using h1, by simpa using h2, h3⟩

theorem mem_appendBlock (b : List COO) (rows cols : List Nat) (c : COO) :
    c ∈ appendBlock b rows cols ↔ c ∈ b ∨
      ∃ i m n : Nat, rows[i]? = some m ∧ cols[i]? = some n ∧ c = ⟨min m n, max m n⟩ := by
  rw [appendBlock, mem_adjUnique, List.mem_insertionSort, List.mem_append, mem_zipWith_orient]

theorem pairwise_appendBlock (b : List COO) (rows cols : List Nat) :
    (appendBlock b rows cols).Pairwise Lt :=
  pairwise_adjUnique _ (List.pairwise_insertionSort _ _)

/-! ### counting neighbours -/

theorem bump_ok (counts : List Nat) (i : Nat) (h : i < counts.length) :
    bump counts i = .ok (counts.modify i (· + 1)) := by simp [bump, h]

theorem countBlock_ok (b : List COO) (counts : List Nat) (h : InRange counts.length b) :
    ∃ out, countBlock b counts = .ok out ∧ out.length = counts.length ∧
      ∀ i, out[i]? = counts[i]?.map (· + degree b i) := by
  induction b generalizing counts with
  | nil =>
    refine ⟨counts, rfl, rfl, ?_⟩
    intro i; cases counts[i]? <;> simp [degree]
  | cons c b ih =>
    have hc := h c (by simp)
    have h1 : (counts.modify c.row (· + 1)).length = counts.length := by simp
    have h2 : ((counts.modify c.row (· + 1)).modify c.col (· + 1)).length = counts.length := by simp
    obtain ⟨out, e, l, p⟩ := ih _ (by rw [h2]; intro x hx; exact h x (by simp [hx]))
    refine ⟨out, ?_, by rw [l, h2], ?_⟩
    · rw [countBlock, bump_ok _ _ hc.1]
      simp only [Res.bind_ok]
      rw [bump_ok _ _ (by rw [h1]; exact hc.2)]
      simpa using e
    · intro i
      rw [p i, List.getElem?_modify, List.getElem?_modify]
      simp only [degree, List.countP_cons]
      cases counts[i]? with
      | none => simp
      | some v =>
        by_cases hr : c.row = i <;> by_cases hk : c.col = i <;> simp [hr, hk] <;> omega

theorem degree_append (a b : List COO) (i : Nat) : degree (a ++ b) i = degree a i + degree b i := by
  simp [degree, List.countP_append]; omega

theorem countBlocks_ok (bs : List (List COO)) (counts : List Nat)
    (h : InRange counts.length bs.flatten) :
    ∃ out, countBlocks bs counts = .ok out ∧ out.length = counts.length ∧
      ∀ i, out[i]? = counts[i]?.map (· + degree bs.flatten i) := by
  induction bs generalizing counts with
  | nil =>
    refine ⟨counts, rfl, rfl, ?_⟩
    intro i; cases counts[i]? <;> simp [degree]
  | cons b bs ih =>
    obtain ⟨o₁, e₁, l₁, p₁⟩ := countBlock_ok b counts
      (fun c hc => h c (by simp only [List.flatten_cons, List.mem_append]; exact Or.inl hc))
    obtain ⟨o₂, e₂, l₂, p₂⟩ := ih o₁
      (by rw [l₁]; intro c hc
          exact h c (by simp only [List.flatten_cons, List.mem_append]; exact Or.inr hc))
    refine ⟨o₂, ?_, by rw [l₂, l₁], ?_⟩
    · rw [countBlocks, e₁]; simpa using e₂
    · intro i
      rw [p₂, p₁, List.flatten_cons, degree_append]
      cases counts[i]? <;> simp
      omega

theorem countBlock_ub (b : List COO) (counts : List Nat) (h : ¬ InRange counts.length b) :
    countBlock b counts = .ub := by
  induction b generalizing counts with
  | nil => exact absurd (by intro c hc; simp at hc) h
  | cons c b ih =>
    rw [countBlock]
    by_cases hr : c.row < counts.length
    · rw [bump_ok _ _ hr]
      simp only [Res.bind_ok]
      by_cases hk : c.col < counts.length
      · rw [bump_ok _ _ (by simpa using hk)]
        simp only [Res.bind_ok]
        apply ih
        simp only [List.length_modify]
        intro hb
        apply h
        intro x hx
        rcases List.mem_cons.1 hx with rfl | hx
        · exact ⟨hr, hk⟩
        · exact hb x hx
      · simp [bump, hk]
    · simp [bump, hr]

theorem countBlocks_ub (bs : List (List COO)) (counts : List Nat)
    (h : ¬ InRange counts.length bs.flatten) : countBlocks bs counts = .ub := by
  induction bs generalizing counts with
  | nil => exact absurd (by intro c hc; simp at hc) h
  | cons b bs ih =>
    rw [countBlocks]
    by_cases hb : InRange counts.length b
    · obtain ⟨o₁, e₁, l₁, -⟩ := countBlock_ok b counts hb
      rw [e₁]
      simp only [Res.bind_ok]
      apply ih
      rw [l₁]
      intro hbs
      apply h
      intro x hx
      rw [List.flatten_cons, List.mem_append] at hx
      rcases hx with hx | hx
      · exact hb x hx
      · exact hbs x hx
    · rw [countBlock_ub _ _ hb]; rfl

theorem nnz_eq (h : HoppingBlocks) : h.nnz = h.blocks.flatten.length := by
  have key : ∀ (bs : List (List COO)) (n : Nat),
      bs.foldl (fun n b => n + b.length) n = n + bs.flatten.length := by
    intro bs
    induction bs with
    | nil => intro n; simp
    | cons b bs ih => intro n; rw [List.foldl_cons, ih]; simp; omega
  simp [nnz, key]

theorem sum_countP_eq (l : List COO) (f : COO → Nat) (n : Nat) (h : ∀ c ∈ l, f c < n) :
    ((List.range n).map fun i => l.countP (fun c => f c = i)).sum = l.length := by
  induction l with
  | nil =>
    have : ∀ n : Nat, ((List.range n).map fun _ => 0).sum = 0 := by
      intro n; induction n with
      | zero => rfl
      | succ n ih => rw [List.range_succ]; simp
    simpa using this n
  | cons c l ih =>
    have ih := ih (fun x hx => h x (by simp [hx]))
    have hc := h c (by simp)
    have key : ∀ (n : Nat) (g : Nat → Nat) (k : Nat), ((List.range n).map fun i => g i + if k = i then 1 else 0).sum
        = ((List.range n).map g).sum + if k < n then 1 else 0 := by
      intro n g k
      induction n with
      | zero => simp
      | succ n ih2 =>
        rw [List.range_succ, List.map_append, List.map_append, List.sum_append, List.sum_append, ih2]
        simp only [List.map_cons, List.map_nil, List.sum_cons, List.sum_nil]
        split <;> split <;> split <;> omega
    have := key n (fun i => l.countP (fun c => f c = i)) (f c)
    simp only [List.countP_cons, decide_eq_true_eq] 
    rw [this, ih, if_pos hc]
    simp

/-! ### removing sites -/

theorem getD_eq_true (keep : List Bool) (i : Nat) :
    keep.getD i false = true ↔ keep[i]? = some true := by
  rw [List.getD_eq_getElem?_getD]
  cases keep[i]? with
  | none => simp
  | some b => simp

end HoppingBlocks

/-! ### CSR -/

/-- Columns strictly increasing. -/
def RowSorted {α : Type} (r : List (Nat × α)) : Prop := (r.map (·.1)).Pairwise (· < ·)

theorem rowInsert_ok {α : Type} (col : Nat) (v : α) (r : List (Nat × α)) (hs : RowSorted r)
    (hn : col ∉ r.map (·.1)) :
    ∃ r', rowInsert col v r = .ok r' ∧ RowSorted r' ∧ r'.Perm ((col, v) :: r) := by
  induction r with
  | nil => exact ⟨_, rfl, by simp [RowSorted], List.Perm.refl _⟩
  | cons p r ih =>
    obtain ⟨c, w⟩ := p
    rw [rowInsert]
    have hs' := List.pairwise_cons.1 (by simpa only [RowSorted, List.map_cons] using hs)
    by_cases h1 : col < c
    · refine ⟨_, by rw [if_pos h1], ?_, List.Perm.refl _⟩
      simp only [RowSorted, List.map_cons]
      refine List.pairwise_cons.2 ⟨?_, by simpa only [RowSorted, List.map_cons] using hs⟩
      intro x hx
      rcases List.mem_cons.1 hx with rfl | hx
      · exact h1
      · exact Nat.lt_trans h1 (hs'.1 x hx)
    · have h2 : col ≠ c := by
        intro h; apply hn; simp [h]
      obtain ⟨r', e, s, p⟩ := ih hs'.2 (by intro h; apply hn; simp only [List.map_cons, List.mem_cons]; exact Or.inr h)
      refine ⟨(c, w) :: r', by rw [if_neg h1, if_neg h2, e]; rfl, ?_, ?_⟩
      · simp only [RowSorted, List.map_cons]
        refine List.pairwise_cons.2 ⟨?_, s⟩
        intro x hx
        have : x ∈ ((col, v) :: r).map (·.1) := (p.map _).mem_iff.1 hx
        simp only [List.map_cons, List.mem_cons] at this
        rcases this with rfl | this
        · omega
        · exact hs'.1 x this
      · exact (List.Perm.cons _ p).trans (List.Perm.swap _ _ _)

theorem rowInsert_dup {α : Type} (col : Nat) (v : α) (r : List (Nat × α)) (hs : RowSorted r)
    (hn : col ∈ r.map (·.1)) : rowInsert col v r = .ub := by
  induction r with
  | nil => simp at hn
  | cons p r ih =>
    obtain ⟨c, w⟩ := p
    have hs' := List.pairwise_cons.1 (by simpa only [RowSorted, List.map_cons] using hs)
    rw [rowInsert]
    simp only [List.map_cons, List.mem_cons] at hn
    rcases hn with rfl | hn
    · simp
    · have := hs'.1 col hn
      rw [if_neg (by omega), if_neg (by omega), ih hs'.2 hn]; rfl

/-- All entries of a CSR matrix as (row, column, value) triples. -/
def csrEntries {α : Type} (m : Csr α) (row : Nat) : List (Nat × α) := (m[row]?).getD []

/-- What `csrInsert` does: with row and column in range and the position free, exactly the new entry
is added. -/
theorem csrInsert_ok {α : Type} (n : Nat) (m : Csr α) (row col : Nat) (v : α)
    (hm : ∀ r ∈ m, RowSorted r) (hr : row < m.length) (hc : col < n)
    (hn : col ∉ (csrEntries m row).map (·.1)) :
    ∃ m', csrInsert n m row col v = .ok m' ∧ m'.length = m.length ∧ (∀ r ∈ m', RowSorted r) ∧
      (csrEntries m' row).Perm ((col, v) :: csrEntries m row) ∧
      ∀ i, i ≠ row → csrEntries m' i = csrEntries m i := by
  have hrow : m[row]? = some m[row] := List.getElem?_eq_getElem hr
  have hent : csrEntries m row = m[row] := by simp [csrEntries, hrow]
  obtain ⟨r', e, s, p⟩ := rowInsert_ok col v m[row] (hm _ (List.getElem_mem _)) (by rw [← hent]; exact hn)
  refine ⟨m.set row r', ?_, by simp, ?_, ?_, ?_⟩
  · simp only [csrInsert, hc, if_true, hrow, e]; rfl
  · intro r hmem
    rcases List.mem_or_eq_of_mem_set hmem with h | h
    · exact hm r h
    · subst h; exact s
  · rw [hent]; simpa [csrEntries, hr] using p
  · intro i hi
    simp [csrEntries, List.getElem?_set_ne (Ne.symm hi)]

theorem csrBlock_ok (n id : Nat) (b : List COO) (m : Csr Nat) (hm : ∀ r ∈ m, RowSorted r)
    (hlen : m.length = n) (hin : InRange n b) (hnd : b.Nodup)
    (hfree : ∀ c ∈ b, c.col ∉ (csrEntries m c.row).map (·.1)) :
    ∃ m', csrBlock n id b m = .ok m' ∧ m'.length = n ∧ (∀ r ∈ m', RowSorted r) ∧
      ∀ i, (csrEntries m' i).Perm
        ((b.filter (fun c => c.row = i)).map (fun c => (c.col, id)) ++ csrEntries m i) := by
  induction b generalizing m with
  | nil => exact ⟨m, rfl, hlen, hm, fun i => by simp⟩
  | cons c b ih =>
    have hc := hin c (by simp)
    obtain ⟨m₁, e₁, l₁, s₁, p₁, q₁⟩ := csrInsert_ok n m c.row c.col id hm (by omega) hc.2 (hfree c (by simp))
    have hnd' := List.nodup_cons.1 hnd
    obtain ⟨m₂, e₂, l₂, s₂, p₂⟩ := ih m₁ s₁ (by omega) (fun x hx => hin x (by simp [hx])) hnd'.2 (by
      intro x hx
      by_cases hxr : x.row = c.row
      · rw [hxr]
        intro hmem
        have := (p₁.map (·.1)).mem_iff.1 hmem
        simp only [List.map_cons, List.mem_cons] at this
        rcases this with h | h
        · apply hnd'.1
          have : x = c := by cases x; cases c; simp_all
          rw [← this]; exact hx
        · exact hfree x (by simp [hx]) (by rw [hxr]; exact h)
      · rw [q₁ x.row hxr]; exact hfree x (by simp [hx]))
    refine ⟨m₂, by rw [csrBlock, e₁]; simpa using e₂, l₂, s₂, ?_⟩
    intro i
    refine (p₂ i).trans ?_
    by_cases hi : c.row = i
    · subst hi
      simp only [List.filter_cons, decide_true, if_true, List.map_cons]
      exact (List.Perm.append_left _ p₁).trans List.perm_middle
    · have : (c :: b).filter (fun x => decide (x.row = i)) = b.filter (fun x => decide (x.row = i)) := by
        rw [List.filter_cons_of_neg (by simpa using hi)]
      rw [this, q₁ i (Ne.symm hi)]

theorem csrBlocks_ok (n id : Nat) (bs : List (List COO)) (m : Csr Nat) (hm : ∀ r ∈ m, RowSorted r)
    (hlen : m.length = n) (hin : InRange n bs.flatten) (hnd : bs.flatten.Nodup)
    (hfree : ∀ c ∈ bs.flatten, c.col ∉ (csrEntries m c.row).map (·.1)) :
    ∃ m', csrBlocks n id bs m = .ok m' ∧ m'.length = n ∧ (∀ r ∈ m', RowSorted r) ∧
      ∀ i, (csrEntries m' i).Perm
        (((bs.zipIdx id).flatMap fun p =>
          (p.1.filter (fun c => c.row = i)).map (fun c => (c.col, p.2))) ++ csrEntries m i) := by
  induction bs generalizing m id with
  | nil => exact ⟨m, rfl, hlen, hm, fun i => by simp⟩
  | cons b bs ih =>
    rw [List.flatten_cons] at hin hnd hfree
    have hnd' := List.nodup_append.1 hnd
    obtain ⟨m₁, e₁, l₁, s₁, p₁⟩ := csrBlock_ok n id b m hm hlen
      (fun c hc => hin c (List.mem_append.2 (Or.inl hc))) hnd'.1
      (fun c hc => hfree c (List.mem_append.2 (Or.inl hc)))
    obtain ⟨m₂, e₂, l₂, s₂, p₂⟩ := ih (id + 1) m₁ s₁ l₁
      (fun c hc => hin c (List.mem_append.2 (Or.inr hc))) hnd'.2.1 (by
        intro c hc hmem
        have := ((p₁ c.row).map (·.1)).mem_iff.1 hmem
        rw [List.map_append, List.mem_append] at this
        rcases this with h | h
        · rw [List.map_map] at h
          obtain ⟨x, hx, hxc⟩ := List.mem_map.1 h
          have hx' := List.mem_filter.1 hx
          have hxr : x.row = c.row := by simpa using hx'.2
          have : x = c := by cases x; cases c; simp_all
          exact hnd'.2.2 x hx'.1 c hc this
        · exact hfree c (List.mem_append.2 (Or.inr hc)) h)
    refine ⟨m₂, by rw [csrBlocks, e₁]; simpa using e₂, l₂, s₂, ?_⟩
    intro i
    refine (p₂ i).trans ?_
    simp only [List.zipIdx_cons, List.flatMap_cons]
    rw [List.append_assoc]
    refine (List.Perm.append_left _ (p₁ i)).trans ?_
    rw [← List.append_assoc, ← List.append_assoc]
    exact List.Perm.append_right _ List.perm_append_comm

end Verif.Hopping
