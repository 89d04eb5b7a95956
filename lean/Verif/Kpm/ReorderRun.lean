import Verif.Kpm.ReorderSearch
import Verif.Kpm.Slice

/-!
# The whole search: slices, reachability, coefficients
-/

namespace Verif.Kpm

open Verif.Numeric
open Verif.Hopping (Csr)
open Verif.Hamiltonian (insertAt insertAll insertAll_append Call Sorted Stored coeff callSum callSum_append callSum_cons)

variable {K : Type}

theorem borderInv_step {h : Csr K} {t : Nat} {s s' : RoSt K} (B : BorderInv h t s) (ht : t < s.queue.length)
    (hb : s'.borders = s.borders) (hq : s.queue <+: s'.queue)
    (hclosed : ∀ p < t + 1, ∀ c, Adj h (s'.queue.getD p 0) c → c ∈ s'.queue)
    (hparent : ∀ p < s'.queue.length, p = 0 ∨ ∃ p' < t + 1, Adj h (s'.queue.getD p' 0) (s'.queue.getD p 0))
    (hlen : t + 1 ≤ s'.queue.length) : BorderInv h (t + 1) (roBorder t s') := by
  obtain ⟨bs, b, e, h1, h2, h3⟩ : ∃ bs b, s.borders = bs ++ [b] ∧ t < b ∧ b ≤ s.queue.length ∧ s.borders.Pairwise (· < ·) := by
    rcases B.state with h | ⟨h, -⟩
    · exact h
    · omega
  have hql := hq.length_le
  have hget : ∀ (j : Nat) (x : Nat), s.borders[j]? = some x → x ≤ s.queue.length := fun j x hx =>
    B.bound x (List.mem_of_getElem? hx)
  have rows' : ∀ j x y, s.borders[j]? = some x → s.borders[j + 1]? = some y →
      ∀ p < x, ∀ c, Adj h (s'.queue.getD p 0) c → s'.queue.idxOf c < y := by
    intro j x y hx hy p hp c hc
    rw [getD_prefix hq (by have := hget j x hx; omega)] at hc
    have := B.rows j x y hx hy p hp c hc
    have hm : c ∈ s.queue := List.idxOf_lt_length_iff.1 (by have := hget _ y hy; omega)
    rw [idxOf_prefix hq hm]
    exact this
  have depth' : ∀ j x y, s.borders[j]? = some x → s.borders[j + 1]? = some y →
      ∀ p < y, p = 0 ∨ ∃ p' < x, Adj h (s'.queue.getD p' 0) (s'.queue.getD p 0) := by
    intro j x y hx hy p hp
    rcases B.depth j x y hx hy p hp with h0 | ⟨p', hp', ha⟩
    · exact .inl h0
    · refine .inr ⟨p', hp', ?_⟩
      rw [getD_prefix hq (by have := hget j x hx; omega), getD_prefix hq (by have := hget _ y hy; omega)]
      exact ha
  have hlast : s'.borders.getLastD 0 = b := by rw [hb, e]; simp
  unfold roBorder
  rw [hlast]
  by_cases htb : t + 1 = b
  · rw [if_pos htb]
    have hnew : s.borders ++ [s'.queue.length] = bs ++ [b] ++ [s'.queue.length] := by rw [e]
    have hlb : s.borders.length = bs.length + 1 := by rw [e]; simp
    have getOld : ∀ j x, (s.borders ++ [s'.queue.length])[j]? = some x → j < s.borders.length → s.borders[j]? = some x := by
      intro j x hx hj
      rwa [List.getElem?_append_left hj] at hx
    have getNew : ∀ j x, (s.borders ++ [s'.queue.length])[j]? = some x → ¬ j < s.borders.length →
        j = s.borders.length ∧ x = s'.queue.length := by
      intro j x hx hj
      rw [List.getElem?_append_right (by omega)] at hx
      rcases hk : j - s.borders.length with _ | k
      · rw [hk] at hx; simp at hx; exact ⟨by omega, hx.symm⟩
      · rw [hk] at hx; simp at hx
    have lastOld : ∀ x, s.borders[bs.length]? = some x → x = b := by
      intro x hx; rw [e] at hx; simp at hx; exact hx.symm
    refine ⟨?_, ?_, ?_, ?_, ?_⟩
    · simp only
      rw [hb]
      by_cases hfull : t + 1 < s'.queue.length
      · left
        refine ⟨s.borders, _, rfl, hfull, le_refl _, ?_⟩
        rw [List.pairwise_append]
        refine ⟨h3, List.pairwise_singleton _ _, fun x hx y hy => ?_⟩
        rw [List.mem_singleton.1 hy]
        rw [e] at h3 hx
        rcases List.mem_append.1 hx with hx | hx
        · have := (List.pairwise_append.1 h3).2.2 x hx b (by simp); omega
        · rw [List.mem_singleton.1 hx]; omega
      · right
        refine ⟨by omega, bs, ?_, ?_⟩
        · rw [e, show s'.queue.length = t + 1 by omega, ← htb]; simp
        · rw [htb, ← e]; exact h3
    · simp only
      rw [hb, List.getElem?_append_left (by omega)]
      exact B.first
    · simp only
      rw [hb]
      intro j x y hx hy p hp c hc
      by_cases hj : j + 1 < s.borders.length
      · exact rows' j x y (getOld _ _ hx (by omega)) (getOld _ _ hy hj) p hp c hc
      · obtain ⟨h4, rfl⟩ := getNew _ _ hy hj
        have hx' := getOld _ _ hx (by omega)
        have : j = bs.length := by omega
        subst this
        have := lastOld x hx'
        exact List.idxOf_lt_length_iff.2 (hclosed p (by omega) c hc)
    · simp only
      rw [hb]
      intro j x y hx hy p hp
      by_cases hj : j + 1 < s.borders.length
      · exact depth' j x y (getOld _ _ hx (by omega)) (getOld _ _ hy hj) p hp
      · obtain ⟨h4, rfl⟩ := getNew _ _ hy hj
        have hx' := getOld _ _ hx (by omega)
        have : j = bs.length := by omega
        subst this
        have hxb := lastOld x hx'
        rcases hparent p hp with h0 | ⟨p', hp', ha⟩
        · exact .inl h0
        · exact .inr ⟨p', by omega, ha⟩
    · simp only
      rw [hb]
      intro x hx
      rcases List.mem_append.1 hx with hx | hx
      · exact Nat.le_trans (B.bound x hx) hql
      · rw [List.mem_singleton.1 hx]
  · rw [if_neg htb]
    refine ⟨.inl ⟨bs, b, by rw [hb, e], by omega, by omega, by rw [hb]; exact h3⟩, by rw [hb]; exact B.first, ?_, ?_, ?_⟩
    · rw [hb]; exact rows'
    · rw [hb]; exact depth'
    · rw [hb]; exact fun x hx => Nat.le_trans (B.bound x hx) hql

@[simp] theorem roBorder_queue (t : Nat) (s : RoSt K) : (roBorder t s).queue = s.queue := by unfold roBorder; split <;> rfl
@[simp] theorem roBorder_map (t : Nat) (s : RoSt K) : (roBorder t s).map = s.map := by unfold roBorder; split <;> rfl
@[simp] theorem roBorder_h2 (t : Nat) (s : RoSt K) : (roBorder t s).h2 = s.h2 := by unfold roBorder; split <;> rfl

theorem searchInv_border [Mul K] [Sub K] [Neg K] [Zero K] [DecidableEq K] {h : Csr K} {invA b : K} {first t u : Nat} {s : RoSt K}
    (I : SearchInv h invA b first t s) : SearchInv h invA b first t (roBorder u s) :=
  ⟨by simpa using I.nodup, by simpa using I.lt, by simpa using I.head, by simpa using I.map, by simpa using I.le,
    by simpa using I.closed, by simpa using I.parent, by simpa using I.inserted, by simpa using I.len, by simpa using I.stored⟩

/-- The state before the first row. -/
def roInit (h : Csr K) (first : Nat) : RoSt K :=
  ⟨[first], (List.replicate h.length (-1)).set first 0, List.replicate h.length [], false, [1]⟩

theorem roInit_inv [CommRing K] [DecidableEq K] {h : Csr K} {invA b : K} {first : Nat} (hf : first < h.length) :
    SearchInv h invA b first 0 (roInit h first) ∧ BorderInv h 0 (roInit h first) := by
  refine ⟨⟨by simp [roInit], by simpa [roInit] using hf, rfl, ⟨by simp [roInit], fun c hc => ?_⟩, by simp [roInit],
    fun p hp => absurd hp (Nat.not_lt_zero _), fun p hp => .inl (by simp [roInit] at hp; exact hp), rfl, by simp [roInit],
    fun a c hst => absurd hst (Hamiltonian.not_stored_zero _ _ _)⟩,
    ⟨.inl ⟨[], 1, rfl, by omega, by simp [roInit], by simp [roInit]⟩, rfl, ?_, ?_, by simp [roInit]⟩⟩
  · unfold roInit
    simp only
    by_cases e : first = c
    · subst e
      rw [List.getElem?_set_self (by simpa using hc)]
      simp
    · rw [List.getElem?_set_ne e]
      have : ¬ c = first := fun h => e h.symm
      simp [hc, this]
  · intro j x y hx hy
    simp [roInit] at hy
  · intro j x y hx hy
    simp [roInit] at hy

/-- The search of the first `t` rows either succeeds, or stops because the queue is exhausted. -/
theorem search [CommRing K] [DecidableEq K] {h : Csr K} (hs : Sorted h.length h) (invA b : K) {first : Nat} (hf : first < h.length)
    (t : Nat) :
    (∃ s, (List.range t).foldlM (roRow h invA b) (roInit h first) = .ok s ∧ SearchInv h invA b first t s ∧ BorderInv h t s) ∨
    ((List.range t).foldlM (roRow h invA b) (roInit h first) = .ub ∧
      ∃ u < t, ∃ s, SearchInv h invA b first u s ∧ s.queue.length = u) := by
  induction t with
  | zero => exact .inl ⟨_, rfl, roInit_inv hf⟩
  | succ t ih =>
    rw [List.range_succ, List.foldlM_append]
    rcases ih with ⟨s, e, I, B⟩ | ⟨e, u, hu, s, I, hl⟩
    · rw [e, Res.bind_ok]
      by_cases ht : t < s.queue.length
      · left
        obtain ⟨s', e', hb, hq, I'⟩ := roRow_ok hs I ht
        refine ⟨roBorder t s', ?_, searchInv_border I', borderInv_step B ht hb hq I'.closed I'.parent I'.le⟩
        rw [List.foldlM_cons, e']
        rfl
      · right
        refine ⟨?_, t, by omega, s, I, by have := I.le; omega⟩
        rw [List.foldlM_cons]
        unfold roRow rd
        rw [List.getElem?_eq_none (by omega)]
        rfl
    · right
      rw [e]
      exact ⟨rfl, u, by omega, s, I, hl⟩

/-- Once every row of the queue has been expanded, the queue holds what is reachable. -/
theorem reach_mem [Mul K] [Sub K] [Neg K] [Zero K] [DecidableEq K] {h : Csr K} {invA b : K} {first t : Nat} {s : RoSt K}
    (I : SearchInv h invA b first t s) (hl : s.queue.length = t) {c : Nat} (hc : Reach h first c) : c ∈ s.queue := by
  induction hc with
  | refl => exact List.mem_of_getElem? I.head
  | tail _ ha ih =>
    have h1 := List.idxOf_lt_length_iff.2 ih
    refine I.closed _ (by rw [← hl]; exact h1) _ ?_
    rw [List.getD_eq_getElem _ _ h1, List.getElem_idxOf h1]
    exact ha

theorem mem_reach [Mul K] [Sub K] [Neg K] [Zero K] [DecidableEq K] {h : Csr K} {invA b : K} {first t : Nat} {s : RoSt K}
    (I : SearchInv h invA b first t s) (B : BorderInv h t s) {j x : Nat} (hx : s.borders[j]? = some x) :
    ∀ p < x, Within h first j (s.queue.getD p 0) := by
  have h0 : s.queue.getD 0 0 = first := by
    rw [List.getD_eq_getElem?_getD, I.head]; rfl
  induction j generalizing x with
  | zero =>
    rw [B.first] at hx
    have : x = 1 := (Option.some.inj hx).symm
    intro p hp
    rw [show p = 0 by omega, h0]
    exact .refl _
  | succ j ih =>
    intro p hp
    have hj : j < s.borders.length := by
      have := (List.getElem?_eq_some_iff.1 hx).1
      omega
    rcases B.depth j _ x (List.getElem?_eq_getElem hj) hx p hp with rfl | ⟨p', hp', ha⟩
    · rw [h0]; exact .refl _
    · exact .step (ih (List.getElem?_eq_getElem hj) p' hp') ha

theorem within_lt [Mul K] [Sub K] [Neg K] [Zero K] [DecidableEq K] {h : Csr K} {invA b : K} {first t : Nat} {s : RoSt K}
    (I : SearchInv h invA b first t s) (B : BorderInv h t s) {j c : Nat} (hw : Within h first j c) :
    ∀ x, s.borders[j]? = some x → s.queue.idxOf c < x := by
  have h0 : s.queue.idxOf first = 0 := by
    have h1 := I.head
    rcases hq : s.queue with _ | ⟨a, l⟩
    · rw [hq] at h1; cases h1
    · rw [hq] at h1
      simp only [List.getElem?_cons_zero, Option.some.injEq] at h1
      rw [h1]; simp
  have hpos : ∀ (j x : Nat), s.borders[j]? = some x → 0 < x := by
    intro j x hx
    rcases j with _ | j
    · rw [B.first] at hx; have := Option.some.inj hx; omega
    · have hj0 := (List.getElem?_eq_some_iff.1 hx).1
      rcases B.state with ⟨bs, b, e, h1, h2, h3⟩ | ⟨hl, bs, e, h3⟩
      · have h4 := List.pairwise_iff_getElem.1 h3 0 (j + 1) (by omega) hj0 (by omega)
        rw [(List.getElem?_eq_some_iff.1 hx).2] at h4
        omega
      · have hql : 0 < s.queue.length := by
          have := (List.getElem?_eq_some_iff.1 I.head).1
          omega
        have hmem := List.mem_of_getElem? hx
        rw [e] at hmem
        rcases List.mem_append.1 hmem with hm | hm
        · have hbs := h3
          have hlt : x ∈ bs → 0 < x := by
            intro hm
            have hne : bs ≠ [] := List.ne_nil_of_mem hm
            have hp := (List.pairwise_append.1 h3).1
            have hf := B.first
            rw [e, List.getElem?_append_left (List.length_pos_of_ne_nil hne)] at hf
            obtain ⟨i, hi, hix⟩ := List.getElem_of_mem hm
            rcases i with _ | i
            · have := (List.getElem?_eq_some_iff.1 hf).2; omega
            · have h4 := List.pairwise_iff_getElem.1 hp 0 (i + 1) (by omega) hi (by omega)
              omega
          exact hlt hm
        · have : x = t := by simpa using hm
          omega
  induction hw with
  | refl k =>
    intro x hx
    rw [h0]
    exact hpos k x hx
  | @step k a c hw ha ih =>
    intro x hx
    have hj : k < s.borders.length := by
      have := (List.getElem?_eq_some_iff.1 hx).1
      omega
    have hlt := ih _ (List.getElem?_eq_getElem hj)
    have hb := B.bound _ (List.getElem_mem hj)
    refine B.rows k _ x (List.getElem?_eq_getElem hj) hx _ hlt c ?_
    have h1 : s.queue.idxOf a < s.queue.length := by omega
    rw [List.getD_eq_getElem _ _ h1, List.getElem_idxOf h1]
    exact ha

theorem within_reach {h : Csr K} {i k j : Nat} (hw : Within h i k j) : Reach h i j := by
  induction hw with
  | refl => exact .refl
  | step _ ha ih => exact .tail ih ha

theorem within_mono {h : Csr K} {i k j : Nat} (hw : Within h i k j) : ∀ l, k ≤ l → Within h i l j := by
  induction hw with
  | refl => exact fun l _ => .refl l
  | step _ ha ih =>
    intro l hl
    rcases l with _ | l
    · omega
    · exact .step (ih l (by omega)) ha

/-! ## Coefficients -/

theorem callSum_none [AddMonoid K] {calls : List (Call K)} {i j : Int} (h : ∀ c ∈ calls, c.1 ≠ i) : callSum calls i j = 0 := by
  induction calls with
  | nil => rfl
  | cons c l ih =>
    rw [callSum_cons, if_neg (fun h' => h c List.mem_cons_self h'.1), ih (fun c hc => h c (List.mem_cons_of_mem _ hc)), zero_add]

theorem rowCalls_fst [Mul K] [Sub K] [Neg K] [Zero K] [DecidableEq K] {h : Csr K} {invA b : K} {q : List Nat} {t : Nat} :
    ∀ c ∈ rowCalls h invA b q t, c.1 = t := by
  intro c hc
  unfold rowCalls at hc
  simp only at hc
  rcases List.mem_append.1 hc with hc | hc
  · obtain ⟨e, -, rfl⟩ := List.mem_map.1 hc
    rfl
  · split at hc
    · rw [List.mem_singleton.1 hc]
    · cases hc

theorem callSum_upTo [CommRing K] [DecidableEq K] {h : Csr K} {invA b : K} {q : List Nat} {t p : Nat} {j : Int} :
    callSum (callsUpTo h invA b q t) p j = if p < t then callSum (rowCalls h invA b q p) p j else 0 := by
  induction t with
  | zero => rfl
  | succ t ih =>
    have : callsUpTo h invA b q (t + 1) = callsUpTo h invA b q t ++ rowCalls h invA b q t := by
      unfold callsUpTo
      rw [List.range_succ, List.flatMap_append]
      simp
    rw [this, callSum_append, ih]
    by_cases hp : p < t
    · rw [if_pos hp, if_pos (by omega), callSum_none (calls := rowCalls h invA b q t), add_zero]
      intro c hc
      rw [rowCalls_fst c hc]
      omega
    · rw [if_neg hp]
      by_cases hpt : p = t
      · subst hpt
        rw [if_pos (by omega), zero_add]
      · rw [if_neg (by omega), callSum_none (calls := rowCalls h invA b q t), add_zero]
        intro c hc
        rw [rowCalls_fst c hc]
        omega

theorem callSum_row [CommRing K] {invA b : K} {q : List Nat} {i p j : Nat} (es : List (Nat × K))
    (hs : (es.map (·.1)).Pairwise (· < ·)) (hq : ∀ e ∈ es, e.1 ∈ q) :
    callSum (es.map (callOf invA b i p q)) p (q.idxOf j)
      = Hamiltonian.rowCoeff es j * invA - if i = j ∧ es.any (fun e => i == e.1) = true then b * invA else 0 := by
  induction es with
  | nil => simp [Hamiltonian.rowCoeff]
  | cons e es ih =>
    rw [List.map_cons, List.pairwise_cons] at hs
    rw [List.map_cons, callSum_cons, Hamiltonian.rowCoeff_cons, ih hs.2 (fun e he => hq e (List.mem_cons_of_mem _ he)),
      List.any_cons]
    simp only [callOf]
    by_cases hj : e.1 = j
    · have hcond : (True ∧ (q.idxOf e.1 : Int) = q.idxOf j) := ⟨trivial, by rw [hj]⟩
      rw [if_pos hcond, if_pos hj]
      have hno : i = j → es.any (fun e => i == e.1) = false := by
        intro hij
        rw [List.any_eq_false]
        intro e' he'
        have := hs.1 e'.1 (List.mem_map.2 ⟨e', he', rfl⟩)
        simp only [beq_iff_eq]
        omega
      unfold roValue
      by_cases hij : i = j
      · rw [if_pos (by omega), if_neg (by rw [hno hij]; simp), if_pos ⟨hij, by simp; left; omega⟩]
        ring
      · rw [if_neg (by omega), if_neg (by simp [hij]), if_neg (by simp [hij])]
        ring
    · have hcond : ¬ (True ∧ (q.idxOf e.1 : Int) = q.idxOf j) := by
        rintro ⟨-, h⟩
        exact hj ((List.idxOf_inj (hq e List.mem_cons_self)).1 (by exact_mod_cast h))
      rw [if_neg hcond, if_neg hj, zero_add, zero_add]
      have : (i = j ∧ (i == e.1 || es.any fun e => i == e.1) = true) ↔ (i = j ∧ (es.any fun e => i == e.1) = true) := by
        constructor
        · rintro ⟨h1, h2⟩
          refine ⟨h1, ?_⟩
          simp only [Bool.or_eq_true, beq_iff_eq] at h2
          rcases h2 with h2 | h2
          · omega
          · exact h2
        · rintro ⟨h1, h2⟩
          exact ⟨h1, by rw [h2]; simp⟩
      simp only [this]

/-- The reordered matrix: row `p`, column of index `j`. -/
theorem search_coeff [CommRing K] [DecidableEq K] {h : Csr K} (hs : Sorted h.length h) {invA b : K} {first : Nat} {s : RoSt K}
    (I : SearchInv h invA b first h.length s) {p j : Nat} (hp : p < h.length) (hj : j ∈ s.queue) :
    coeff s.h2 p (s.queue.idxOf j) =
      (coeff h (s.queue.getD p 0) j - if s.queue.getD p 0 = j then b else 0) * invA := by
  have hpl : p < s.queue.length := Nat.lt_of_lt_of_le hp I.le
  have hi : s.queue.getD p 0 < h.length := I.lt _ (getD_mem hpl)
  obtain ⟨r1, r2, r3⟩ := row_ok hs hi
  obtain ⟨-, -, hco⟩ := Hamiltonian.addAll_ok (by simp) (Hamiltonian.insertAll_addAll I.inserted)
  have hc := hco p (s.queue.idxOf j)
  rw [Hamiltonian.coeff_zero, zero_add, callSum_upTo, if_pos hp] at hc
  rw [hc, Hamiltonian.coeff_eq]
  unfold rowCalls
  simp only
  rw [callSum_append, callSum_row _ r2 (fun e he => I.closed p hp e.1 (adj_iff.2 ⟨e, he, rfl⟩))]
  generalize hes : h.getD (s.queue.getD p 0) [] = es at *
  generalize hi' : s.queue.getD p 0 = i at *
  have hidx : i = j → s.queue.idxOf j = p := by
    intro e
    have := idxOf_getD I.nodup hpl
    rw [hi', e] at this
    exact this
  have hidx' : s.queue.idxOf j = p → i = j := by
    intro e
    rw [← hi', ← e, List.getD_eq_getElem _ _ (by rw [e]; exact hpl), List.getElem_idxOf]
  by_cases hij : i = j
  · rw [if_pos hij]
    have hz := hidx hij
    by_cases hany : es.any (fun e => i == e.1) = true
    · rw [if_pos ⟨hij, hany⟩, if_neg (by simp [hany]), Hamiltonian.callSum_nil]
      ring
    · rw [if_neg (by simp [hany])]
      by_cases hb : b = 0
      · rw [if_neg (by simp [hb]), Hamiltonian.callSum_nil, hb]; ring
      · rw [if_pos ⟨hb, Bool.eq_false_iff.2 hany⟩, callSum_cons, if_pos ⟨rfl, by rw [hz]⟩, Hamiltonian.callSum_nil]
        ring
  · rw [if_neg hij, if_neg (by simp [hij])]
    have : ∀ l : List (Call K), (∀ c ∈ l, c.2.1 = (p : Int)) → callSum l p (s.queue.idxOf j) = 0 := by
      intro l
      induction l with
      | nil => intro _; rfl
      | cons c l ih =>
        intro hl
        rw [callSum_cons, if_neg, ih (fun c hc => hl c (List.mem_cons_of_mem _ hc)), zero_add]
        rintro ⟨-, h2⟩
        rw [hl c List.mem_cons_self] at h2
        exact hij (hidx' (by omega))
    rw [this]
    · ring
    · intro c hc
      split at hc
      · rw [List.mem_singleton.1 hc]
      · cases hc

end Verif.Kpm
