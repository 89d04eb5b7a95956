import Verif.Kpm.Reorder
import Verif.Hamiltonian.Csr
import Mathlib.Data.List.Nodup
import Mathlib.Data.List.GetD
import Mathlib.Logic.Relation
import Mathlib.Tactic.Ring

/-!
# The graph search of `create_reordered`
-/

namespace Verif.Kpm

open Verif.Numeric
open Verif.Hopping (Csr)
open Verif.Hamiltonian (insertAt insertAll insertAll_append Call Sorted Stored)

variable {K : Type}

/-- Specification: the matrix has an element at `(i, j)`. -/
def Adj (h : Csr K) (i j : Nat) : Prop := ∃ v, (j, v) ∈ h.getD i []

/-- Specification: `j` is reached from `i` by following elements of the matrix. -/
def Reach (h : Csr K) (i j : Nat) : Prop := Relation.ReflTransGen (Adj h) i j

/-- Specification: `j` is reached from `i` in at most `k` steps. -/
inductive Within (h : Csr K) (i : Nat) : Nat → Nat → Prop
  | refl (k : Nat) : Within h i k i
  | step {k j l : Nat} : Within h i k j → Adj h j l → Within h i (k + 1) l

/-- Add an index to the queue unless it is there. -/
def push (q : List Nat) (c : Nat) : List Nat := if c ∈ q then q else q ++ [c]

/-- The queue after visiting the elements of a row. -/
def pushAll (q : List Nat) (es : List (Nat × K)) : List Nat := es.foldl (fun q e => push q e.1) q

theorem push_prefix (q : List Nat) (c : Nat) : q <+: push q c := by
  unfold push
  split
  · exact List.prefix_rfl
  · exact List.prefix_append _ _

theorem pushAll_prefix (q : List Nat) (es : List (Nat × K)) : q <+: pushAll q es := by
  induction es generalizing q with
  | nil => exact List.prefix_rfl
  | cons e es ih => exact (push_prefix q e.1).trans (ih _)

theorem mem_push {q : List Nat} {c x : Nat} : x ∈ push q c ↔ x ∈ q ∨ x = c := by
  unfold push
  split
  · rename_i h
    constructor
    · exact .inl
    · rintro (h' | rfl) <;> assumption
  · simp

theorem mem_pushAll {q : List Nat} {es : List (Nat × K)} {x : Nat} :
    x ∈ pushAll q es ↔ x ∈ q ∨ ∃ e ∈ es, e.1 = x := by
  induction es generalizing q with
  | nil => simp [pushAll]
  | cons e es ih =>
    have : pushAll q (e :: es) = pushAll (push q e.1) es := rfl
    rw [this, ih, mem_push]
    simp only [List.mem_cons, exists_eq_or_imp, or_assoc]
    constructor
    · rintro (h | h | h)
      · exact .inl h
      · exact .inr (.inl h.symm)
      · exact .inr (.inr h)
    · rintro (h | h | h)
      · exact .inl h
      · exact .inr (.inl h.symm)
      · exact .inr (.inr h)

theorem push_nodup {q : List Nat} (h : q.Nodup) (c : Nat) : (push q c).Nodup := by
  unfold push
  split
  · exact h
  · rename_i hc
    rw [List.nodup_append']
    exact ⟨h, List.nodup_singleton c, by simpa [List.disjoint_singleton] using hc⟩

theorem pushAll_nodup {q : List Nat} (h : q.Nodup) (es : List (Nat × K)) : (pushAll q es).Nodup := by
  induction es generalizing q with
  | nil => exact h
  | cons e es ih => exact ih (push_nodup h e.1)

theorem idxOf_prefix {q q' : List Nat} (h : q <+: q') {c : Nat} (hc : c ∈ q) : q'.idxOf c = q.idxOf c := by
  obtain ⟨t, rfl⟩ := h
  rw [List.idxOf_append_of_mem hc]

/-- The map of indices records positions in the queue. -/
def MapOf (n : Nat) (q : List Nat) (map : List Int) : Prop :=
  map.length = n ∧ ∀ c < n, map[c]? = some (if c ∈ q then (q.idxOf c : Int) else -1)

theorem roVisit_eq {n : Nat} {s : RoSt K} (hm : MapOf n s.queue s.map) {c : Nat} (hc : c < n) :
    ∃ map', roVisit s c = .ok { s with queue := push s.queue c, map := map' } ∧ MapOf n (push s.queue c) map' := by
  unfold roVisit rd
  rw [hm.2 c hc]
  simp only [Res.bind_ok]
  by_cases h : c ∈ s.queue
  · rw [if_pos h, if_neg (by omega)]
    have hp : push s.queue c = s.queue := by unfold push; rw [if_pos h]
    exact ⟨s.map, by rw [hp], by rw [hp]; exact hm⟩
  · rw [if_neg h, if_pos (by omega)]
    have hp : push s.queue c = s.queue ++ [c] := by unfold push; rw [if_neg h]
    refine ⟨_, by rw [hp], by rw [List.length_set]; exact hm.1, fun x hx => ?_⟩
    by_cases e : c = x
    · subst e
      rw [List.getElem?_set_self (by rw [hm.1]; exact hc), hp, if_pos (by simp), List.idxOf_append_of_notMem h]
      simp
    · rw [List.getElem?_set_ne e, hm.2 x hx, hp]
      by_cases hx' : x ∈ s.queue
      · rw [if_pos hx', if_pos (by simp [hx']), List.idxOf_append_of_mem hx']
      · rw [if_neg hx', if_neg (by simp [hx']; exact fun h => e h.symm)]

/-- The insertion made for one element. -/
def callOf [Mul K] [Sub K] (invA b : K) (row t : Nat) (q : List Nat) (e : Nat × K) : Call K :=
  (t, q.idxOf e.1, roValue invA b row e.1 e.2)

theorem roElems_eq [Mul K] [Sub K] {n : Nat} {invA b : K} {row t : Nat} (es : List (Nat × K)) (hes : ∀ e ∈ es, e.1 < n)
    (s : RoSt K) (hm : MapOf n s.queue s.map) (h2' : Csr K)
    (hi : insertAll n (es.map (callOf invA b row t (pushAll s.queue es))) s.h2 = .ok h2') :
    ∃ map', es.foldlM (roElem n invA b row t) s
        = .ok ⟨pushAll s.queue es, map', h2', s.diag || es.any (fun e => row == e.1), s.borders⟩ ∧
      MapOf n (pushAll s.queue es) map' := by
  induction es generalizing s with
  | nil =>
    refine ⟨s.map, ?_, hm⟩
    have : s.h2 = h2' := Res.ok.inj hi
    subst this
    simp [pushAll]
  | cons e es ih =>
    obtain ⟨map1, e1, m1⟩ := roVisit_eq hm (hes e List.mem_cons_self)
    have hq : pushAll s.queue (e :: es) = pushAll (push s.queue e.1) es := rfl
    have hmem : e.1 ∈ push s.queue e.1 := mem_push.2 (.inr rfl)
    have hidx : (pushAll s.queue (e :: es)).idxOf e.1 = (push s.queue e.1).idxOf e.1 := by
      rw [hq]; exact idxOf_prefix (pushAll_prefix _ _) hmem
    rw [List.map_cons] at hi
    simp only [insertAll, callOf, hidx] at hi
    rw [List.foldlM_cons]
    have hel : roElem n invA b row t s e = (do
        let s ← roVisit s e.1
        let h2col ← rd s.map e.1
        let h2 ← insertAt n s.h2 (t : Int) h2col (roValue invA b row e.1 e.2)
        .ok { s with h2 := h2, diag := s.diag || row == e.1 }) := rfl
    rw [hel, e1]
    simp only [Res.bind_ok]
    have hrd : rd map1 e.1 = .ok ((push s.queue e.1).idxOf e.1 : Int) := by
      unfold rd
      rw [m1.2 e.1 (hes e List.mem_cons_self), if_pos hmem]
    rw [hrd]
    simp only [Res.bind_ok]
    rcases hx : insertAt n s.h2 t ((push s.queue e.1).idxOf e.1) (roValue invA b row e.1 e.2) with h1 | _ | _
    · rw [hx] at hi
      simp only [Res.bind_ok] at hi
      obtain ⟨map2, e2, m2⟩ := ih (fun e he => hes e (List.mem_cons_of_mem _ he))
        ⟨push s.queue e.1, map1, h1, s.diag || row == e.1, s.borders⟩ m1 hi
      refine ⟨map2, ?_, m2⟩
      simp only [Res.bind_ok, e2, List.any_cons, Bool.or_assoc]
      rfl
    · rw [hx] at hi; cases hi
    · rw [hx] at hi; cases hi

/-- All insertions for row `t` of the reordered matrix. -/
def rowCalls [Mul K] [Sub K] [Neg K] [Zero K] [DecidableEq K] (h : Csr K) (invA b : K) (q : List Nat) (t : Nat) : List (Call K) :=
  let row := q.getD t 0
  let es := h.getD row []
  es.map (callOf invA b row t q) ++
    (if b ≠ 0 ∧ es.any (fun e => row == e.1) = false then [((t : Int), (t : Int), -b * invA)] else [])

/-- The insertions for the first `t` rows. -/
def callsUpTo [Mul K] [Sub K] [Neg K] [Zero K] [DecidableEq K] (h : Csr K) (invA b : K) (q : List Nat) (t : Nat) : List (Call K) :=
  (List.range t).flatMap (rowCalls h invA b q)

theorem getD_prefix {q q' : List Nat} (h : q <+: q') {t : Nat} (ht : t < q.length) : q'.getD t 0 = q.getD t 0 := by
  obtain ⟨r, rfl⟩ := h
  simp [List.getElem?_append_left ht]

theorem rowCalls_prefix [Mul K] [Sub K] [Neg K] [Zero K] [DecidableEq K] {h : Csr K} {invA b : K} {q q' : List Nat}
    (hp : q <+: q') {t : Nat} (ht : t < q.length) (hc : ∀ e ∈ h.getD (q.getD t 0) [], e.1 ∈ q) :
    rowCalls h invA b q' t = rowCalls h invA b q t := by
  unfold rowCalls
  simp only [getD_prefix hp ht]
  congr 1
  refine List.map_congr_left fun e he => ?_
  unfold callOf
  rw [idxOf_prefix hp (hc e he)]

/-- The invariant of the search, before row `t`. -/
structure SearchInv [Mul K] [Sub K] [Neg K] [Zero K] [DecidableEq K] (h : Csr K) (invA b : K) (first t : Nat) (s : RoSt K) :
    Prop where
  nodup : s.queue.Nodup
  lt : ∀ c ∈ s.queue, c < h.length
  head : s.queue[0]? = some first
  map : MapOf h.length s.queue s.map
  le : t ≤ s.queue.length
  closed : ∀ p < t, ∀ c, Adj h (s.queue.getD p 0) c → c ∈ s.queue
  parent : ∀ p < s.queue.length, p = 0 ∨ ∃ p' < t, Adj h (s.queue.getD p' 0) (s.queue.getD p 0)
  inserted : insertAll h.length (callsUpTo h invA b s.queue t) (List.replicate h.length []) = .ok s.h2
  len : s.h2.length = h.length
  stored : ∀ a c : Int, Stored s.h2 a c → a < t

/-- The invariant of the slice borders, before row `t`: the last border is still ahead, or the search has run
out of indices. -/
structure BorderInv (h : Csr K) (t : Nat) (s : RoSt K) : Prop where
  state : (∃ bs b, s.borders = bs ++ [b] ∧ t < b ∧ b ≤ s.queue.length ∧ s.borders.Pairwise (· < ·)) ∨
    (s.queue.length = t ∧ ∃ bs, s.borders = bs ++ [t, t] ∧ (bs ++ [t]).Pairwise (· < ·))
  first : s.borders[0]? = some 1
  rows : ∀ j x y, s.borders[j]? = some x → s.borders[j + 1]? = some y →
    ∀ p < x, ∀ c, Adj h (s.queue.getD p 0) c → s.queue.idxOf c < y
  depth : ∀ j x y, s.borders[j]? = some x → s.borders[j + 1]? = some y →
    ∀ p < y, p = 0 ∨ ∃ p' < x, Adj h (s.queue.getD p' 0) (s.queue.getD p 0)
  bound : ∀ x ∈ s.borders, x ≤ s.queue.length

theorem idxOf_getD {q : List Nat} (h : q.Nodup) {t : Nat} (ht : t < q.length) : q.idxOf (q.getD t 0) = t := by
  rw [List.getD_eq_getElem _ _ ht]
  exact h.idxOf_getElem t ht

theorem getD_mem {q : List Nat} {t : Nat} (ht : t < q.length) : q.getD t 0 ∈ q := by
  rw [List.getD_eq_getElem _ _ ht]
  exact List.getElem_mem ht

theorem adj_iff {h : Csr K} {i c : Nat} : Adj h i c ↔ ∃ e ∈ h.getD i [], e.1 = c := by
  constructor
  · rintro ⟨v, hv⟩; exact ⟨_, hv, rfl⟩
  · rintro ⟨e, he, rfl⟩; exact ⟨e.2, he⟩

theorem row_ok {h : Csr K} (hs : Sorted h.length h) {i : Nat} (hi : i < h.length) :
    h[i]? = some (h.getD i []) ∧ ((h.getD i []).map (·.1)).Pairwise (· < ·) ∧ ∀ e ∈ h.getD i [], e.1 < h.length := by
  have e : h.getD i [] = h[i] := List.getD_eq_getElem _ _ hi
  rw [e]
  exact ⟨List.getElem?_eq_getElem hi, hs.2 _ (List.getElem_mem hi)⟩

/-- One row of the search. -/
theorem roRow_ok [CommRing K] [DecidableEq K] {h : Csr K} (hs : Sorted h.length h) {invA b : K} {first t : Nat} {s : RoSt K}
    (I : SearchInv h invA b first t s) (ht : t < s.queue.length) :
    ∃ s', roRow h invA b s t = .ok (roBorder t s') ∧ s'.borders = s.borders ∧ s.queue <+: s'.queue ∧
      SearchInv h invA b first (t + 1) s' := by
  have hrow : s.queue.getD t 0 < h.length := I.lt _ (getD_mem ht)
  obtain ⟨r1, r2, r3⟩ := row_ok hs hrow
  generalize hr : s.queue.getD t 0 = row at *
  generalize hes : h.getD row [] = es at *
  have hq : s.queue <+: pushAll s.queue es := pushAll_prefix _ _
  have hnd : (pushAll s.queue es).Nodup := pushAll_nodup I.nodup es
  have hmem : ∀ e ∈ es, e.1 ∈ pushAll s.queue es := fun e he => mem_pushAll.2 (.inr ⟨e, he, rfl⟩)
  have hlt : ∀ c ∈ pushAll s.queue es, c < h.length := by
    intro c hc
    rcases mem_pushAll.1 hc with hc | ⟨e, he, rfl⟩
    · exact I.lt c hc
    · exact r3 e he
  have hlen : (pushAll s.queue es).length ≤ h.length := by
    have := (List.subperm_of_subset hnd (fun x hx => List.mem_range.2 (hlt x hx))).length_le
    simpa using this
  have hrow' : (pushAll s.queue es).getD t 0 = row := by rw [getD_prefix hq ht, hr]
  have hidx : ∀ c ∈ pushAll s.queue es, (pushAll s.queue es).idxOf c < (pushAll s.queue es).length :=
    fun c hc => List.idxOf_lt_length_iff.2 hc
  have hidxrow : (pushAll s.queue es).idxOf row = t := by
    have := idxOf_getD hnd (Nat.lt_of_lt_of_le ht hq.length_le)
    rw [hrow'] at this
    exact this
  have hrowmem : row ∈ pushAll s.queue es := by
    rw [← hrow']; exact getD_mem (Nat.lt_of_lt_of_le ht hq.length_le)
  -- the insertions of this row
  have hcalls : rowCalls h invA b (pushAll s.queue es) t = es.map (callOf invA b row t (pushAll s.queue es)) ++
      (if b ≠ 0 ∧ es.any (fun e => row == e.1) = false then [((t : Int), (t : Int), -b * invA)] else []) := by
    unfold rowCalls
    simp only [hrow', hes]
  have hnodup1 : ((es.map (callOf invA b row t (pushAll s.queue es))).map fun c => (c.1, c.2.1)).Nodup := by
    rw [List.map_map]
    have hk : (es.map (·.1)).Nodup := r2.imp (fun h => Nat.ne_of_lt h)
    refine List.Nodup.of_map (fun p : Int × Int => p.2) ?_
    rw [List.map_map]
    have : ((fun p : Int × Int => p.2) ∘ (fun c : Call K => (c.1, c.2.1)) ∘ callOf invA b row t (pushAll s.queue es))
        = (fun c : Nat => ((pushAll s.queue es).idxOf c : Int)) ∘ (·.1) := rfl
    rw [this, ← List.map_map]
    refine List.Nodup.map_on ?_ hk
    intro x hx y hy hxy
    obtain ⟨e, he, rfl⟩ := List.mem_map.1 hx
    obtain ⟨e', he', rfl⟩ := List.mem_map.1 hy
    exact (List.idxOf_inj (hmem e he)).1 (by exact_mod_cast hxy)
  obtain ⟨h2a, ea, la, sa, -⟩ := Hamiltonian.insertAll_fresh (es.map (callOf invA b row t (pushAll s.queue es))) I.len
    (by
      intro c hc
      obtain ⟨e, he, rfl⟩ := List.mem_map.1 hc
      have := hidx _ (hmem e he)
      have := hq.length_le
      simp only [callOf]
      omega) hnodup1 (by
      intro c hc hst
      obtain ⟨e, he, rfl⟩ := List.mem_map.1 hc
      have := I.stored _ _ hst
      simp only [callOf] at this
      omega)
  have hq0 : ({ s with diag := false } : RoSt K).queue = s.queue := rfl
  obtain ⟨map', ef, mf⟩ := roElems_eq (invA := invA) (b := b) (row := row) (t := t) es r3 { s with diag := false } I.map h2a ea
  -- the diagonal element
  obtain ⟨h2b, eb, lb, sb⟩ : ∃ h2b, roDiag h.length invA b t
      ⟨pushAll s.queue es, map', h2a, false || es.any (fun e => row == e.1), s.borders⟩
        = .ok ⟨pushAll s.queue es, map', h2b, false || es.any (fun e => row == e.1), s.borders⟩ ∧ h2b.length = h.length ∧
      (∀ a c : Int, Stored h2b a c → a < ((t + 1 : Nat) : Int)) ∧
      insertAll h.length (rowCalls h invA b (pushAll s.queue es) t) s.h2 = .ok h2b := by
    have hsa : ∀ a c : Int, Stored h2a a c → a < ((t + 1 : Nat) : Int) := by
      intro a c hst
      rcases sa a c hst with h1 | ⟨c', hc', h1, -⟩
      · have := I.stored a c h1; omega
      · obtain ⟨e, he, rfl⟩ := List.mem_map.1 hc'
        rw [h1]; simp only [callOf]; omega
    unfold roDiag
    rw [hcalls, insertAll_append, ea]
    simp only [Bool.false_or]
    by_cases hcond : b ≠ 0 ∧ es.any (fun e => row == e.1) = false
    · rw [if_pos hcond, if_pos hcond]
      obtain ⟨h2b, e1, l1, s1, -⟩ := Hamiltonian.insertAt_fresh la (t : Int) (t : Int) (-b * invA) (by have := hq.length_le; omega)
        (by have := hq.length_le; omega) (by
          intro hst
          rcases sa _ _ hst with h1 | ⟨c', hc', h1, h2⟩
          · have := I.stored _ _ h1; omega
          · obtain ⟨e, he, rfl⟩ := List.mem_map.1 hc'
            simp only [callOf] at h2
            have h3 : e.1 = row := by
              refine (List.idxOf_inj (hmem e he)).1 ?_
              rw [hidxrow]; omega
            have := hcond.2
            rw [List.any_eq_false] at this
            exact this e he (by simp [h3]))
      refine ⟨h2b, ?_, l1, ?_, ?_⟩
      · rw [e1]; rfl
      · intro a c hst
        rcases s1 a c hst with h1 | ⟨h1, -⟩
        · exact hsa a c h1
        · omega
      · simp only [Res.bind, insertAll, e1]; rfl
    · rw [if_neg hcond, if_neg hcond]
      exact ⟨h2a, rfl, la, hsa, rfl⟩
  refine ⟨⟨pushAll s.queue es, map', h2b, false || es.any (fun e => row == e.1), s.borders⟩, ?_, rfl, hq, ?_⟩
  · unfold roRow
    have hrd1 : rd s.queue t = .ok row := by
      unfold rd
      rw [List.getElem?_eq_getElem ht]
      simp only
      rw [← hr, List.getD_eq_getElem _ _ ht]
    have hrd2 : rd h row = .ok es := by unfold rd; rw [r1]
    rw [hrd1, Res.bind_ok, hrd2, Res.bind_ok, ef, Res.bind_ok, eb, Res.bind_ok]
    rfl
  · refine ⟨hnd, hlt, ?_, mf, ?_, ?_, ?_, ?_, lb, sb.1⟩
    · have h0 := I.head
      obtain ⟨r, hr'⟩ := hq
      simp only
      rw [← hr', List.getElem?_append_left (by omega)]
      exact h0
    · have := hq.length_le; simp only; omega
    · intro p hp c hc
      simp only at hc ⊢
      by_cases hpt : p < t
      · rw [getD_prefix hq (by omega)] at hc
        exact hq.subset (I.closed p hpt c hc)
      · have : p = t := by omega
        subst this
        rw [hrow'] at hc
        obtain ⟨e, he, rfl⟩ := adj_iff.1 hc
        rw [hes] at he
        exact hmem e he
    · intro p hp
      simp only at hp ⊢
      by_cases hps : p < s.queue.length
      · rcases I.parent p hps with h0 | ⟨p', hp', ha⟩
        · exact .inl h0
        · refine .inr ⟨p', by omega, ?_⟩
          rw [getD_prefix hq (by omega), getD_prefix hq hps]
          exact ha
      · refine .inr ⟨t, by omega, ?_⟩
        rw [hrow']
        have hm2 := getD_mem hp
        rcases mem_pushAll.1 hm2 with h1 | ⟨e, he, h1⟩
        · exfalso
          have h2 := idxOf_getD hnd hp
          rw [idxOf_prefix hq h1] at h2
          have h3 := List.idxOf_lt_length_iff.2 h1
          omega
        · rw [← h1]
          exact adj_iff.2 ⟨e, by rw [hes]; exact he, rfl⟩
    · have : callsUpTo h invA b (pushAll s.queue es) (t + 1)
          = callsUpTo h invA b s.queue t ++ rowCalls h invA b (pushAll s.queue es) t := by
        unfold callsUpTo
        rw [List.range_succ, List.flatMap_append]
        congr 1
        · rw [List.flatMap_def, List.flatMap_def]
          congr 1
          refine List.map_congr_left fun p hp => ?_
          have hp' := List.mem_range.1 hp
          refine rowCalls_prefix hq (by omega) fun e he => I.closed p hp' e.1 (adj_iff.2 ⟨e, he, rfl⟩)
        · simp
      rw [this, insertAll_append, I.inserted]
      exact sb.2

end Verif.Kpm
