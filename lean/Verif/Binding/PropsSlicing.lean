import Verif.Binding.Slicing
import Verif.Hopping.Props
import Mathlib.Tactic.Linarith
import Mathlib.Tactic.Ring
import Mathlib.Data.List.GetD

/-!
# C82: a part of a system has the chosen sites, and all hoppings between them
-/

namespace Verif.Binding.Slicing

open Verif.Binding.Names (AliasArray)

/-! ## Specification -/

/-- The matrix has the value `v` stored at row `i` and column `j`. -/
def Entry (m : Csr) (i j v : Nat) : Prop := ∃ row, m[i]? = some row ∧ (j, v) ∈ row

/-- A square matrix with each place stored at most once. -/
def SquareCsr (n : Nat) (m : Csr) : Prop := m.length = n ∧ ∀ row ∈ m, (row.map (·.1)).Nodup ∧ ∀ e ∈ row, e.1 < n

/-- A structure with `n` sites. -/
structure Sized {F : Type} (n : Nat) (s : Structure F) : Prop where
  x : s.sites.x.length = n
  y : s.sites.y.length = n
  z : s.sites.z.length = n
  ids : ∃ a, s.sites.ids = some a ∧ a.data.length = n
  hoppings : SquareCsr n s.hoppings
  boundaries : ∀ b ∈ s.boundaries, SquareCsr n b.hoppings

/-- Site number `k` of the part `t` is site number `p` of `s`: position and family are equal. -/
def SameSite {F : Type} (s t : Structure F) (k p : Nat) : Prop :=
  t.sites.x[k]? = s.sites.x[p]? ∧ t.sites.y[k]? = s.sites.y[p]? ∧ t.sites.z[k]? = s.sites.z[p]? ∧
    ∃ a b, s.sites.ids = some a ∧ t.sites.ids = some b ∧ b.mapping = a.mapping ∧ b.data[k]? = a.data[p]?

/-- `t` is the part of `s` with the sites `ps`, in this order. -/
structure Part {F : Type} (s t : Structure F) (ps : List Nat) : Prop where
  sites : ∀ k p : Nat, ps[k]? = some p → SameSite s t k p
  hoppings : ∀ k l v, Entry t.hoppings k l v ↔ ∃ p q, ps[k]? = some p ∧ ps[l]? = some q ∧ Entry s.hoppings p q v
  numBoundaries : t.boundaries.length = s.boundaries.length
  boundaries : ∀ (i : Nat) b c, s.boundaries[i]? = some b → t.boundaries[i]? = some c → c.shift = b.shift ∧
    ∀ k l v, Entry c.hoppings k l v ↔ ∃ p q, ps[k]? = some p ∧ ps[l]? = some q ∧ Entry b.hoppings p q v

/-! ## Places -/

theorem mem_trues (m : List Bool) (i p : Nat) : p ∈ trues m i ↔ ∃ j, p = i + j ∧ m[j]? = some true := by
  induction m generalizing i with
  | nil => simp [trues]
  | cons b m ih =>
    have key : p ∈ trues m (i + 1) ↔ ∃ j, p = i + (j + 1) ∧ m[j]? = some true := by
      rw [ih]
      constructor <;> rintro ⟨j, h1, h2⟩ <;> exact ⟨j, by omega, h2⟩
    unfold trues
    cases b with
    | true =>
      rw [if_pos rfl, List.mem_cons, key]
      constructor
      · rintro (rfl | ⟨j, h1, h2⟩)
        · exact ⟨0, rfl, rfl⟩
        · exact ⟨j + 1, h1, h2⟩
      · rintro ⟨j, h1, h2⟩
        rcases j with _ | j
        · exact .inl h1
        · exact .inr ⟨j, h1, h2⟩
    | false =>
      rw [if_neg (by decide), key]
      constructor
      · rintro ⟨j, h1, h2⟩
        exact ⟨j + 1, h1, h2⟩
      · rintro ⟨j, h1, h2⟩
        rcases j with _ | j
        · simp at h2
        · exact ⟨j, h1, h2⟩

theorem trues_sorted (m : List Bool) (i : Nat) : (trues m i).Pairwise (· < ·) := by
  induction m generalizing i with
  | nil => simp [trues]
  | cons b m ih =>
    unfold trues
    split
    · rw [List.pairwise_cons]
      refine ⟨?_, ih (i + 1)⟩
      intro p hp
      obtain ⟨j, h, -⟩ := (mem_trues m (i + 1) p).1 hp
      omega
    · exact ih (i + 1)

/-- **C82** (masks).  A mask takes the places where it is true, in ascending order. -/
theorem C82_mask (n : Nat) (m : List Bool) (hm : m.length = n) :
    ∃ ps, resolve n (.mask m) = .ok ps ∧ ps.Pairwise (· < ·) ∧ ∀ p, p ∈ ps ↔ m[p]? = some true := by
  refine ⟨trues m 0, by simp [resolve, hm], trues_sorted m 0, ?_⟩
  intro p
  rw [mem_trues]
  simp

theorem wrap_cases (n : Nat) (i : Int) :
    (∃ p, wrap n i = .ok p ∧ p < n ∧ ((p : Int) = i ∨ (p : Int) = i + n ∧ i < 0) ∧ -(n : Int) ≤ i ∧ i < n) ∨
      (wrap n i = .err .outOfRange ∧ ¬ (-(n : Int) ≤ i ∧ i < n)) := by
  unfold wrap
  by_cases h1 : 0 ≤ i ∧ i < n
  · rw [if_pos h1]
    exact .inl ⟨_, rfl, by omega, by omega, by omega, by omega⟩
  · rw [if_neg h1]
    by_cases h2 : i < 0 ∧ -n ≤ i
    · rw [if_pos h2]
      exact .inl ⟨_, rfl, by omega, by omega, by omega, by omega⟩
    · rw [if_neg h2]
      exact .inr ⟨rfl, by omega⟩

theorem wrapAll_cases (n : Nat) (is : List Int) :
    (∃ ps, wrapAll n is = .ok ps ∧ ps.length = is.length ∧
      (∀ (k : Nat) p i, ps[k]? = some p → is[k]? = some i → p < n ∧ ((p : Int) = i ∨ (p : Int) = i + n ∧ i < 0)) ∧ ∀ i ∈ is, -(n : Int) ≤ i ∧ i < n) ∨
    (wrapAll n is = .err .outOfRange ∧ ¬ ∀ i ∈ is, -(n : Int) ≤ i ∧ i < n) := by
  induction is with
  | nil => exact .inl ⟨[], rfl, rfl, by simp, by simp⟩
  | cons i is ih =>
    rcases wrap_cases n i with ⟨p, h1, h2, h3, h4⟩ | ⟨h1, h2⟩
    · rcases ih with ⟨ps, e1, e2, e3, e4⟩ | ⟨e1, e2⟩
      · refine .inl ⟨p :: ps, ?_, by simp [e2], ?_, ?_⟩
        · simp only [wrapAll, h1, e1, Res.bind_ok]
          rfl
        · intro k q j hq hj
          rcases k with _ | k
          · simp only [List.getElem?_cons_zero, Option.some.injEq] at hq hj
            subst hq
            subst hj
            exact ⟨h2, h3⟩
          · simp only [List.getElem?_cons_succ] at hq hj
            exact e3 k q j hq hj
        · intro j hj
          rcases List.mem_cons.1 hj with rfl | hj
          · exact h4
          · exact e4 j hj
      · refine .inr ⟨?_, fun h => e2 fun j hj => h j (List.mem_cons_of_mem _ hj)⟩
        simp only [wrapAll, h1, e1, Res.bind_ok, Res.bind_err]
    · refine .inr ⟨?_, fun h => h2 (h i List.mem_cons_self)⟩
      simp only [wrapAll, h1, Res.bind_err]

/-- **C82** (numbers).  A list of numbers takes the places with these numbers, in the given order; negative numbers count from the end, and any number out of range is an
error. -/
theorem C82_ints (n : Nat) (is : List Int) :
    ((∀ i ∈ is, -(n : Int) ≤ i ∧ i < n) → ∃ ps, resolve n (.ints is) = .ok ps ∧ ps.length = is.length ∧
      ∀ (k : Nat) p i, ps[k]? = some p → is[k]? = some i → p < n ∧ ((p : Int) = i ∨ (p : Int) = i + n ∧ i < 0)) ∧
    ((∃ i ∈ is, i < -n ∨ n ≤ i) → resolve n (.ints is) = .err .outOfRange) := by
  unfold resolve
  simp only
  rcases wrapAll_cases n is with ⟨ps, e1, e2, e3, e4⟩ | ⟨e1, e2⟩
  · refine ⟨fun _ => ⟨ps, e1, e2, e3⟩, ?_⟩
    rintro ⟨i, hi, hb⟩
    have := e4 i hi
    omega
  · exact ⟨fun h => absurd h e2, fun _ => e1⟩

theorem sliceFrom_get (step stop : Int) (fuel : Nat) (i : Int) (k : Nat) (p : Nat) (hi : (0 < step ∧ 0 ≤ i) ∨ (step < 0 ∧ -1 ≤ stop)) :
    (sliceFrom step stop fuel i)[k]? = some p ↔
      k < fuel ∧ (p : Int) = i + k * step ∧ ((0 < step ∧ i + k * step < stop) ∨ (step < 0 ∧ stop < i + k * step)) := by
  induction fuel generalizing i k with
  | zero => simp [sliceFrom]
  | succ fuel ih =>
    unfold sliceFrom
    by_cases h : (0 < step ∧ i < stop) ∨ (step < 0 ∧ stop < i)
    · rw [if_pos h]
      rcases k with _ | k
      · simp only [List.getElem?_cons_zero, Option.some.injEq, Nat.cast_zero, zero_mul, add_zero]
        omega
      · rw [List.getElem?_cons_succ, ih (i + step) k (by omega)]
        have e : i + step + (k : Int) * step = i + ((k + 1 : Nat) : Int) * step := by
          push_cast
          ring
        rw [e]
        omega
    · rw [if_neg h]
      constructor
      · intro h'
        simp at h'
      · rintro ⟨-, -, h2⟩
        exfalso
        apply h
        rcases h2 with ⟨a, b⟩ | ⟨a, b⟩
        · left
          refine ⟨a, ?_⟩
          nlinarith [mul_nonneg (Int.natCast_nonneg k) a.le]
        · right
          refine ⟨a, ?_⟩
          nlinarith [mul_nonneg (Int.natCast_nonneg k) (neg_nonneg.2 a.le)]

/-- **C82** (slices).  A slice takes every `step`-th place from its start on, up to its end, in this order; a negative start or end counts from the end of the array, a missing start or end
stands for the respective end of the array, and what lies outside is left out.  Steps of zero are an error. -/
theorem C82_slice (n : Nat) (start stop : Option Int) (step : Int) :
    (step = 0 → resolve n (.slice start stop step) = .err .invalidArgument) ∧
    (0 < step → ∃ ps, resolve n (.slice start stop step) = .ok ps ∧
      ∀ a b : Int, a = (match start with | none => 0 | some i => max 0 (if i < 0 then i + n else i)) →
        b = (match stop with | none => (n : Int) | some i => if i < 0 then i + n else i) →
        ∀ k p : Nat, ps[k]? = some p ↔ (p : Int) = a + k * step ∧ (p : Int) < b ∧ p < n) ∧
    (step < 0 → ∃ ps, resolve n (.slice start stop step) = .ok ps ∧
      ∀ a b : Int, a = (match start with | none => (n : Int) - 1 | some i => min (n - 1) (if i < 0 then i + n else i)) →
        b = (match stop with | none => (-1 : Int) | some i => if i < 0 then i + n else i) →
        ∀ k p : Nat, ps[k]? = some p ↔ (p : Int) = a + k * step ∧ b < p) := by
  refine ⟨fun h => by simp [resolve, h], fun h => ?_, fun h => ?_⟩
  · refine ⟨_, by simp only [resolve]; rw [if_neg (by omega)], ?_⟩
    intro a b ha hb k p
    have hlo : ∀ d : Int, 0 ≤ d → d ≤ n → ∀ o : Option Int, 0 ≤ clip n step d o ∧ clip n step d o ≤ n := by
      intro d h1 h2 o
      unfold clip
      rcases o with _ | i
      · exact ⟨h1, h2⟩
      · simp only [if_neg (not_lt.2 h.le)]
        split <;> split <;> (try split) <;> omega
    have hs := hlo 0 le_rfl (by omega) start
    have he := hlo n (by omega) le_rfl stop
    simp only [if_neg (not_lt.2 h.le)]
    rw [sliceFrom_get _ _ _ _ _ _ (.inl ⟨h, hs.1⟩)]
    have ea : a < n → clip n step 0 start = a := by
      intro han
      rw [ha] at han ⊢
      unfold clip
      rcases start with _ | i
      · rfl
      · simp only [if_neg (not_lt.2 h.le)] at han ⊢
        split at han <;> split <;> split <;> (try split) <;> omega
    have ea' : n ≤ a → clip n step 0 start = n := by
      intro han
      rw [ha] at han
      unfold clip
      rcases start with _ | i
      · simp only at han ⊢
        omega
      · simp only [if_neg (not_lt.2 h.le)] at han ⊢
        split at han <;> split <;> split <;> (try split) <;> omega
    have eb : ∀ q : Int, 0 ≤ q → (q < clip n step n stop ↔ q < b ∧ q < n) := by
      intro q hq
      rw [hb]
      unfold clip
      rcases stop with _ | i
      · simp
      · simp only [if_neg (not_lt.2 h.le)]
        split <;> split <;> (try split) <;> omega
    have hk : 0 ≤ (k : Int) * step := mul_nonneg (Int.natCast_nonneg k) h.le
    have hkk : (k : Int) ≤ k * step := by nlinarith [Int.natCast_nonneg k]
    constructor
    · rintro ⟨h1, h2, h3⟩
      rcases h3 with ⟨-, h3⟩ | ⟨h3, -⟩
      · have h4 := (eb _ (by omega)).1 h3
        by_cases han : a < n
        · rw [ea han] at h2 h4
          omega
        · rw [ea' (by omega)] at h4
          omega
      · omega
    · rintro ⟨h1, h2, h3⟩
      have han : a < n := by omega
      have ha0 : 0 ≤ a := by
        rw [ea han] at hs
        exact hs.1
      rw [ea han]
      refine ⟨by omega, h1, .inl ⟨h, ?_⟩⟩
      exact (eb _ (by omega)).2 (by omega)
  · refine ⟨_, by simp only [resolve]; rw [if_neg (by omega)], ?_⟩
    intro a b ha hb k p
    simp only [if_pos h]
    have hlo : ∀ d : Int, -1 ≤ d → d ≤ n - 1 → ∀ o : Option Int, -1 ≤ clip n step d o ∧ clip n step d o ≤ n - 1 := by
      intro d h1 h2 o
      unfold clip
      rcases o with _ | i
      · exact ⟨h1, h2⟩
      · simp only [if_pos h]
        split <;> split <;> (try split) <;> omega
    have hs := hlo (n - 1) (by omega) le_rfl start
    have he := hlo (-1) le_rfl (by omega) stop
    rw [sliceFrom_get _ _ _ _ _ _ (.inr ⟨h, he.1⟩)]
    have hk : (k : Int) * step ≤ 0 := mul_nonpos_of_nonneg_of_nonpos (Int.natCast_nonneg k) h.le
    have hkk : (k : Int) * step ≤ -k := by nlinarith [Int.natCast_nonneg k]
    have ea : -1 ≤ a → clip n step (n - 1) start = a := by
      intro han
      rw [ha] at han ⊢
      unfold clip
      rcases start with _ | i
      · rfl
      · simp only [if_pos h] at han ⊢
        split at han <;> split <;> split <;> (try split) <;> omega
    have ea' : a < -1 → clip n step (n - 1) start = -1 := by
      intro han
      rw [ha] at han
      unfold clip
      rcases start with _ | i
      · simp only at han ⊢
        omega
      · simp only [if_pos h] at han ⊢
        split at han <;> split <;> split <;> (try split) <;> omega
    have eb : ∀ q : Int, 0 ≤ q → q ≤ n - 1 → (clip n step (-1) stop < q ↔ b < q) := by
      intro q hq hq'
      rw [hb]
      unfold clip
      rcases stop with _ | i
      · simp
      · simp only [if_pos h]
        split <;> split <;> (try split) <;> omega
    constructor
    · rintro ⟨h1, h2, h3⟩
      rcases h3 with ⟨h3, -⟩ | ⟨-, h3⟩
      · omega
      · have h4 := (eb _ (by omega) (by omega)).1 h3
        by_cases han : -1 ≤ a
        · rw [ea han] at h2 h4
          omega
        · rw [ea' (by omega)] at h3
          omega
    · rintro ⟨h1, h2⟩
      have han : -1 ≤ a := by omega
      rw [ea han] at hs ⊢
      refine ⟨by omega, h1, .inr ⟨h, ?_⟩⟩
      exact (eb _ (by omega) (by omega)).2 (by omega)

theorem resolve_lt (n : Nat) (idx : Idx) (ps : List Nat) (h : resolve n idx = .ok ps) : ∀ p ∈ ps, p < n := by
  intro p hp
  rcases idx with m | is | ⟨start, stop, step⟩
  · unfold resolve at h
    simp only at h
    split at h
    · rename_i hm
      rw [Res.ok.injEq] at h
      subst h
      obtain ⟨j, h1, h2⟩ := (mem_trues m 0 p).1 hp
      have := (List.getElem?_eq_some_iff.1 h2).1
      omega
    · cases h
  · rcases wrapAll_cases n is with ⟨qs, e1, e2, e3, -⟩ | ⟨e1, -⟩
    · have : qs = ps := by
        unfold resolve at h
        simp only at h
        rw [e1, Res.ok.injEq] at h
        exact h
      subst this
      obtain ⟨k, hk⟩ := List.mem_iff_getElem?.1 hp
      have hkl := (List.getElem?_eq_some_iff.1 hk).1
      exact (e3 k p _ hk (List.getElem?_eq_getElem (by omega))).1
    · unfold resolve at h
      simp only at h
      rw [e1] at h
      cases h
  · obtain ⟨h0, h1, h2⟩ := C82_slice n start stop step
    obtain ⟨k, hk⟩ := List.mem_iff_getElem?.1 hp
    rcases lt_trichotomy step 0 with hs | hs | hs
    · obtain ⟨qs, e1, e2⟩ := h2 hs
      rw [h, Res.ok.injEq] at e1
      subst e1
      have := (e2 _ _ rfl rfl k p).1 hk
      have hk0 : (k : Int) * step ≤ 0 := mul_nonpos_of_nonneg_of_nonpos (Int.natCast_nonneg k) hs.le
      rcases start with _ | i
      · simp only at this
        omega
      · simp only at this
        omega
    · rw [h0 hs] at h
      cases h
    · obtain ⟨qs, e1, e2⟩ := h1 hs
      rw [h, Res.ok.injEq] at e1
      subst e1
      exact ((e2 _ _ rfl rfl k p).1 hk).2.2

/-! ## Arrays and matrices -/

theorem gather_eq {α : Type} (l : List α) (ps : List Nat) (h : ∀ p ∈ ps, p < l.length) :
    (gather l ps).length = ps.length ∧ ∀ k p : Nat, ps[k]? = some p → (gather l ps)[k]? = l[p]? := by
  unfold gather
  induction ps with
  | nil => simp
  | cons p ps ih =>
    obtain ⟨h1, h2⟩ := ih fun q hq => h q (List.mem_cons_of_mem _ hq)
    have hp := h p List.mem_cons_self
    rw [List.filterMap_cons_some (List.getElem?_eq_getElem hp)]
    refine ⟨by simp [h1], ?_⟩
    intro k q hk
    rcases k with _ | k
    · simp only [List.getElem?_cons_zero, Option.some.injEq] at hk ⊢
      subst hk
      exact (List.getElem?_eq_getElem hp).symm
    · simp only [List.getElem?_cons_succ] at hk ⊢
      exact h2 k q hk

theorem index_ok {α : Type} (l : List α) (n : Nat) (hl : l.length = n) (idx : Idx) (ps : List Nat) (h : resolve n idx = .ok ps) :
    index l idx = .ok (gather l ps) ∧ (gather l ps).length = ps.length ∧ ∀ k p : Nat, ps[k]? = some p → (gather l ps)[k]? = l[p]? := by
  subst hl
  refine ⟨?_, gather_eq l ps (resolve_lt _ idx ps h)⟩
  unfold index
  rw [h]
  rfl

theorem sum_at (row : List (Nat × Nat)) (hnd : (row.map (·.1)).Nodup) (j : Nat) :
    (∀ v, (j, v) ∈ row → ((row.filter fun e => e.1 = j).map (·.2)).sum = v) ∧
    ((∀ v, (j, v) ∉ row) → ((row.filter fun e => e.1 = j).map (·.2)).sum = 0) := by
  induction row with
  | nil => simp
  | cons e row ih =>
    obtain ⟨i, w⟩ := e
    rw [List.map_cons, List.nodup_cons] at hnd
    obtain ⟨ih1, ih2⟩ := ih hnd.2
    by_cases hij : i = j
    · subst hij
      have hno : ∀ v, (i, v) ∉ row := fun v hv => hnd.1 (List.mem_map.2 ⟨_, hv, rfl⟩)
      constructor
      · intro v hv
        rcases List.mem_cons.1 hv with hv | hv
        · simp only [Prod.mk.injEq, true_and] at hv
          simp [ih2 hno, hv]
        · exact absurd hv (hno v)
      · intro h
        exact absurd List.mem_cons_self (h w)
    · constructor
      · intro v hv
        rcases List.mem_cons.1 hv with hv | hv
        · simp only [Prod.mk.injEq] at hv
          exact absurd hv.1.symm hij
        · simp [List.filter_cons, hij, ih1 v hv]
      · intro h
        simp [List.filter_cons, hij, ih2 fun v hv => h v (List.mem_cons_of_mem _ hv)]

theorem keys_filterMap (g : Nat → Nat) (l : List Nat) :
    (l.filterMap fun i => if g i = 0 then none else some (i, g i)).map (·.1) = l.filter fun i => g i ≠ 0 := by
  induction l with
  | nil => rfl
  | cons i l ih =>
    by_cases h : g i = 0
    · simp [List.filterMap_cons, List.filter_cons, h]
      simpa using ih
    · simp [List.filterMap_cons, List.filter_cons, h]
      simpa using ih

/-- **C82** (matrices).  The part of a matrix has the chosen rows and columns, with all values, also zeros. -/
theorem C82_matrix (n : Nat) (m : Csr) (hm : SquareCsr n m) (idx : Idx) (ps : List Nat) (h : resolve n idx = .ok ps) :
    ∃ t, sliceCsr m idx = .ok t ∧ SquareCsr ps.length t ∧ ∀ k l v, Entry t k l v ↔ ∃ p q, ps[k]? = some p ∧ ps[l]? = some q ∧ Entry m p q v := by
  have hlt := resolve_lt n idx ps h
  obtain ⟨hlen, hrows⟩ := hm
  refine ⟨_, by unfold sliceCsr; rw [hlen, h]; rfl, ?_, ?_⟩
  · constructor
    · simp [decr, takeCols, takeRows]
    · intro row hrow
      unfold decr takeCols at hrow
      rw [List.map_map] at hrow
      obtain ⟨r, -, rfl⟩ := List.mem_map.1 hrow
      simp only [Function.comp]
      constructor
      · rw [List.map_map]
        change ((List.range ps.length).filterMap fun l => if ((r.filter fun e => e.1 = ps.getD l 0).map (·.2)).sum = 0 then none else
          some (l, ((r.filter fun e => e.1 = ps.getD l 0).map (·.2)).sum)).map (·.1) |>.Nodup
        rw [keys_filterMap (fun l => ((r.filter fun e => e.1 = ps.getD l 0).map (·.2)).sum)]
        exact List.nodup_range.filter _
      · intro e he
        obtain ⟨e', he', rfl⟩ := List.mem_map.1 he
        obtain ⟨l, hl, hle⟩ := List.mem_filterMap.1 he'
        split at hle
        · cases hle
        · rw [Option.some.injEq] at hle
          subst hle
          exact List.mem_range.1 hl
  · intro k l v
    have hnz : ∀ p : Nat, ((incr m).getD p []).filter (fun e => e.2 ≠ 0) = ((m[p]?).getD []).map fun e => (e.1, e.2 + 1) := by
      intro p
      unfold incr
      rw [List.getD_eq_getElem?_getD, List.getElem?_map]
      rcases m[p]? with _ | row
      · rfl
      · simp only [Option.map_some, Option.getD_some]
        rw [List.filter_eq_self]
        intro e he
        obtain ⟨e', -, rfl⟩ := List.mem_map.1 he
        simp
    unfold Entry decr takeCols takeRows
    rw [List.map_map, List.map_map]
    constructor
    · rintro ⟨row, hrow, hmem⟩
      rw [List.getElem?_map, Option.map_eq_some_iff] at hrow
      obtain ⟨p, hp, rfl⟩ := hrow
      simp only [Function.comp] at hmem
      rw [hnz] at hmem
      have hplt := hlt p (List.mem_of_getElem? hp)
      have hpm : m[p]? = some m[p] := List.getElem?_eq_getElem (by omega)
      rw [hpm, Option.getD_some] at hmem
      obtain ⟨e, he, hev⟩ := List.mem_map.1 hmem
      obtain ⟨l', hl', hle⟩ := List.mem_filterMap.1 he
      have hnd := (hrows _ (List.mem_of_getElem? hpm)).1
      have hnd' : ((m[p].map fun e => (e.1, e.2 + 1)).map (·.1)).Nodup := by
        rw [List.map_map]
        exact hnd
      obtain ⟨s1, s2⟩ := sum_at _ hnd' (ps.getD l' 0)
      split at hle
      · cases hle
      · rename_i hne
        rw [Option.some.injEq] at hle
        subst hle
        simp only [Prod.mk.injEq] at hev
        obtain ⟨rfl, hv⟩ := hev
        have hl'' := List.mem_range.1 hl'
        have hq : ps[l']? = some (ps.getD l' 0) := by
          rw [List.getD_eq_getElem _ _ hl'']
          exact List.getElem?_eq_getElem hl''
        refine ⟨p, ps.getD l' 0, hp, hq, m[p], hpm, ?_⟩
        by_contra hno
        have hall : ∀ w, (ps.getD l' 0, w) ∉ m[p].map fun e => (e.1, e.2 + 1) := by
          intro w hw
          have hs := s1 w hw
          obtain ⟨e', he', heq⟩ := List.mem_map.1 hw
          simp only [Prod.mk.injEq] at heq
          apply hno
          rw [hs] at hv
          have : e' = (ps.getD l' 0, v) := by
            ext
            · exact heq.1
            · simp only
              omega
          rw [← this]
          exact he'
        exact hne (s2 hall)
    · rintro ⟨p, q, hp, hq, row, hrow, hmem⟩
      refine ⟨_, by rw [List.getElem?_map, hp]; rfl, ?_⟩
      simp only [Function.comp]
      rw [hnz, hrow, Option.getD_some]
      have hnd := (hrows _ (List.mem_of_getElem? hrow)).1
      have hnd' : ((row.map fun e => (e.1, e.2 + 1)).map (·.1)).Nodup := by
        rw [List.map_map]
        exact hnd
      have hs := (sum_at _ hnd' q).1 (v + 1) (List.mem_map.2 ⟨_, hmem, rfl⟩)
      have hql := (List.getElem?_eq_some_iff.1 hq).1
      refine List.mem_map.2 ⟨(l, v + 1), List.mem_filterMap.2 ⟨l, List.mem_range.2 hql, ?_⟩, rfl⟩
      have hqd : ps.getD l 0 = q := by
        rw [List.getD_eq_getElem?_getD, hq]
        rfl
      rw [hqd, hs]
      exact if_neg (by omega)

/-! ## Parts -/

variable {F : Type}

theorem getBoundaries_spec (n : Nat) (idx : Idx) (ps : List Nat) (h : resolve n idx = .ok ps) (bs : List (Boundary F)) (hbs : ∀ b ∈ bs, SquareCsr n b.hoppings) :
    ∃ cs, getBoundaries idx bs = .ok cs ∧ cs.length = bs.length ∧ (∀ c ∈ cs, SquareCsr ps.length c.hoppings) ∧
      ∀ (i : Nat) b c, bs[i]? = some b → cs[i]? = some c → c.shift = b.shift ∧
        ∀ k l v, Entry c.hoppings k l v ↔ ∃ p q, ps[k]? = some p ∧ ps[l]? = some q ∧ Entry b.hoppings p q v := by
  induction bs with
  | nil => exact ⟨[], rfl, rfl, by simp, by simp⟩
  | cons b bs ih =>
    obtain ⟨cs, h1, h2, h3, h4⟩ := ih fun b hb => hbs b (List.mem_cons_of_mem _ hb)
    obtain ⟨t, e1, e2, e3⟩ := C82_matrix n b.hoppings (hbs b List.mem_cons_self) idx ps h
    refine ⟨⟨b.shift, t⟩ :: cs, ?_, by simp [h2], ?_, ?_⟩
    · unfold getBoundaries Boundary.get
      rw [e1, Res.bind_ok, h1]
      rfl
    · intro c hc
      rcases List.mem_cons.1 hc with rfl | hc
      · exact e2
      · exact h3 c hc
    · intro i b' c' hb hc
      rcases i with _ | i
      · simp only [List.getElem?_cons_zero, Option.some.injEq] at hb hc
        subst hb
        subst hc
        exact ⟨rfl, e3⟩
      · simp only [List.getElem?_cons_succ] at hb hc
        exact h4 i b' c' hb hc

/-- **C82** (parts).  `structure[idx]` has the sites which the index takes, in its order, with their positions and families, and exactly the hoppings between them, also
across the boundaries; it can be taken apart again. -/
theorem C82_part (n : Nat) (s : Structure F) (hs : Sized n s) (idx : Idx) (ps : List Nat) (h : resolve n idx = .ok ps) :
    ∃ t, s.get idx = .ok t ∧ Sized ps.length t ∧ Part s t ps := by
  obtain ⟨hx, hy, hz, ⟨a, ha, hal⟩, hh, hb⟩ := hs
  obtain ⟨x1, x2, x3⟩ := index_ok s.sites.x n hx idx ps h
  obtain ⟨y1, y2, y3⟩ := index_ok s.sites.y n hy idx ps h
  obtain ⟨z1, z2, z3⟩ := index_ok s.sites.z n hz idx ps h
  obtain ⟨d1, d2, d3⟩ := index_ok a.data n hal idx ps h
  obtain ⟨m, m1, m2, m3⟩ := C82_matrix n s.hoppings hh idx ps h
  obtain ⟨cs, c1, c2, c3, c4⟩ := getBoundaries_spec n idx ps h s.boundaries hb
  refine ⟨⟨⟨gather s.sites.x ps, gather s.sites.y ps, gather s.sites.z ps, some ⟨gather a.data ps, a.mapping⟩⟩, m, cs⟩, ?_, ?_, ?_⟩
  · unfold Structure.get Sites.get
    simp only [x1, y1, z1, d1, ha, m1, c1, Res.bind_ok]
    rfl
  · exact ⟨x2, y2, z2, ⟨_, rfl, d2⟩, m2, c3⟩
  · exact ⟨fun k p hk => ⟨x3 k p hk, y3 k p hk, z3 k p hk, a, _, ha, rfl, rfl, d3 k p hk⟩, m3, c2, c4⟩

/-- **C82** (parts of parts).  A part of a part is the part with the sites of the second index of the sites of the first one. -/
theorem C82_compose (s t u : Structure F) (ps qs : List Nat) (hps : ∀ q ∈ qs, q < ps.length) (h1 : Part s t ps) (h2 : Part t u qs) : Part s u (gather ps qs) := by
  obtain ⟨glen, gget⟩ := gather_eq ps qs hps
  have hg : ∀ k p : Nat, (gather ps qs)[k]? = some p ↔ ∃ q, qs[k]? = some q ∧ ps[q]? = some p := by
    intro k p
    constructor
    · intro hk
      have hkl := (List.getElem?_eq_some_iff.1 hk).1
      have hq : qs[k]? = some qs[k] := List.getElem?_eq_getElem (by omega)
      exact ⟨_, hq, by rw [← gget k _ hq]; exact hk⟩
    · rintro ⟨q, hq, hp⟩
      rw [gget k q hq]
      exact hp
  refine ⟨?_, ?_, h2.numBoundaries.trans h1.numBoundaries, ?_⟩
  · intro k p hk
    obtain ⟨q, hq, hp⟩ := (hg k p).1 hk
    obtain ⟨x1, y1, z1, a, b, ha, hb, hab, hd⟩ := h1.sites q p hp
    obtain ⟨x2, y2, z2, b', c, hb', hc, hbc, hd'⟩ := h2.sites k q hq
    rw [hb, Option.some.injEq] at hb'
    subst hb'
    exact ⟨x2.trans x1, y2.trans y1, z2.trans z1, a, c, ha, hc, hbc.trans hab, hd'.trans hd⟩
  · intro k l v
    rw [h2.hoppings k l v]
    constructor
    · rintro ⟨q, r, hq, hr, he⟩
      obtain ⟨p, p', hp, hp', he'⟩ := (h1.hoppings q r v).1 he
      exact ⟨p, p', (hg k p).2 ⟨q, hq, hp⟩, (hg l p').2 ⟨r, hr, hp'⟩, he'⟩
    · rintro ⟨p, p', hp, hp', he⟩
      obtain ⟨q, hq, hqp⟩ := (hg k p).1 hp
      obtain ⟨r, hr, hrp⟩ := (hg l p').1 hp'
      exact ⟨q, r, hq, hr, (h1.hoppings q r v).2 ⟨p, p', hqp, hrp, he⟩⟩
  · intro i b d hb hd
    have hil := (List.getElem?_eq_some_iff.1 hb).1
    have hc : t.boundaries[i]? = some (t.boundaries[i]'(by rw [h1.numBoundaries]; exact hil)) := List.getElem?_eq_getElem _
    obtain ⟨s1, e1⟩ := h1.boundaries i b _ hb hc
    obtain ⟨s2, e2⟩ := h2.boundaries i _ d hc hd
    refine ⟨s2.trans s1, ?_⟩
    intro k l v
    rw [e2 k l v]
    constructor
    · rintro ⟨q, r, hq, hr, he⟩
      obtain ⟨p, p', hp, hp', he'⟩ := (e1 q r v).1 he
      exact ⟨p, p', (hg k p).2 ⟨q, hq, hp⟩, (hg l p').2 ⟨r, hr, hp'⟩, he'⟩
    · rintro ⟨p, p', hp, hp', he⟩
      obtain ⟨q, hq, hqp⟩ := (hg k p).1 hp
      obtain ⟨r, hr, hrp⟩ := (hg l p').1 hp'
      exact ⟨q, r, hq, hr, (e1 q r v).2 ⟨p, p', hqp, hrp, he⟩⟩

theorem cropLoop_get [LinearOrder F] (n : Nat) (s : Sites F) (hx : s.x.length = n) (hy : s.y.length = n) (hz : s.z.length = n) (limits : List (Axis × F × F))
    (idx : List Bool) (hidx : idx.length = n) :
    (cropLoop s limits idx).length = n ∧ ∀ p : Nat, (cropLoop s limits idx)[p]? = some true ↔
      idx[p]? = some true ∧ ∀ name lo hi, (name, lo, hi) ∈ limits → ∃ a, (s.axis name)[p]? = some a ∧ lo ≤ a ∧ a < hi := by
  induction limits generalizing idx with
  | nil => simp [cropLoop, hidx]
  | cons l limits ih =>
    obtain ⟨name, lo, hi⟩ := l
    unfold cropLoop
    simp only
    have hv : (s.axis name).length = n := by
      cases name
      · exact hx
      · exact hy
      · exact hz
    obtain ⟨h1, h2⟩ := ih (List.zipWith (· && ·) (List.zipWith (· && ·) idx ((s.axis name).map fun a => decide (lo ≤ a))) ((s.axis name).map fun a => decide (a < hi)))
      (by simp [hidx, hv])
    refine ⟨h1, ?_⟩
    intro p
    rw [h2 p]
    have key : (List.zipWith (· && ·) (List.zipWith (· && ·) idx ((s.axis name).map fun a => decide (lo ≤ a))) ((s.axis name).map fun a => decide (a < hi)))[p]? = some true ↔
        idx[p]? = some true ∧ ∃ a, (s.axis name)[p]? = some a ∧ lo ≤ a ∧ a < hi := by
      simp only [List.getElem?_zipWith, List.getElem?_map]
      rcases idx[p]? with _ | b <;> rcases (s.axis name)[p]? with _ | a <;> simp [and_assoc]
    rw [key]
    constructor
    · rintro ⟨⟨a1, a2⟩, a3⟩
      refine ⟨a1, ?_⟩
      intro name' lo' hi' hm
      rcases List.mem_cons.1 hm with hm | hm
      · simp only [Prod.mk.injEq] at hm
        obtain ⟨rfl, rfl, rfl⟩ := hm
        exact a2
      · exact a3 _ _ _ hm
    · rintro ⟨a1, a2⟩
      exact ⟨⟨a1, a2 _ _ _ List.mem_cons_self⟩, fun _ _ _ hm => a2 _ _ _ (List.mem_cons_of_mem _ hm)⟩

/-- **C82** (cropping).  `structure.cropped(x=[a, b], …)` has exactly the sites with `a ≤ x < b` etc., in the same order, and the hoppings between them. -/
theorem C82_cropped [LinearOrder F] (n : Nat) (s : Structure F) (hs : Sized n s) (limits : List (Axis × F × F)) :
    ∃ t ps, s.cropped limits = .ok t ∧ Part s t ps ∧ Sized ps.length t ∧ ps.Pairwise (· < ·) ∧
      ∀ p, p ∈ ps ↔ p < n ∧ ∀ name lo hi, (name, lo, hi) ∈ limits → ∃ a, (s.sites.axis name)[p]? = some a ∧ lo ≤ a ∧ a < hi := by
  obtain ⟨h1, h2⟩ := cropLoop_get n s.sites hs.x hs.y hs.z limits (List.replicate s.sites.x.length true) (by simp [hs.x])
  obtain ⟨ps, hps, hsorted, hmem⟩ := C82_mask n _ h1
  obtain ⟨t, ht, hsz, hpart⟩ := C82_part n s hs _ ps hps
  refine ⟨t, ps, ht, hpart, hsz, hsorted, ?_⟩
  intro p
  rw [hmem p, h2 p, hs.x]
  simp only [List.getElem?_replicate]
  constructor
  · rintro ⟨a, b⟩
    refine ⟨?_, b⟩
    by_contra hc
    rw [if_neg hc] at a
    cases a
  · rintro ⟨a, b⟩
    exact ⟨by rw [if_pos a], b⟩

/-- **C82** (shapes).  `structure[shape]` has exactly the sites which the shape contains. -/
theorem C82_shape (n : Nat) (s : Structure F) (hs : Sized n s) (contains : F → F → F → Bool) :
    ∃ t ps, s.getShape contains = .ok t ∧ Part s t ps ∧ Sized ps.length t ∧ ps.Pairwise (· < ·) ∧
      ∀ p, p ∈ ps ↔ ∃ x y z, s.sites.x[p]? = some x ∧ s.sites.y[p]? = some y ∧ s.sites.z[p]? = some z ∧ contains x y z = true := by
  obtain ⟨ps, hps, hsorted, hmem⟩ := C82_mask n (List.zipWith (fun (p : F × F) z => contains p.1 p.2 z) (List.zip s.sites.x s.sites.y) s.sites.z)
    (by simp [hs.x, hs.y, hs.z])
  obtain ⟨t, ht, hsz, hpart⟩ := C82_part n s hs _ ps hps
  refine ⟨t, ps, ht, hpart, hsz, hsorted, ?_⟩
  intro p
  rw [hmem p, List.getElem?_zipWith, List.zip, List.getElem?_zipWith]
  rcases s.sites.x[p]? with _ | x <;> rcases s.sites.y[p]? with _ | y <;> rcases s.sites.z[p]? with _ | z <;> simp

/-- **C82** (maps).  A part of a map has the values of its sites. -/
theorem C82_map {D : Type} (n : Nat) (m : Map F D) (hs : Sized n m.structure_) (hd : m.data.length = n) (idx : Idx) (ps : List Nat) (h : resolve n idx = .ok ps) :
    ∃ t, m.get idx = .ok t ∧ Sized ps.length t.structure_ ∧ t.data.length = ps.length ∧ Part m.structure_ t.structure_ ps ∧
      ∀ k p : Nat, ps[k]? = some p → t.data[k]? = m.data[p]? := by
  obtain ⟨t, h1, h2, h3⟩ := C82_part n m.structure_ hs idx ps h
  obtain ⟨d1, d2, d3⟩ := index_ok m.data n hd idx ps h
  refine ⟨⟨gather m.data ps, t⟩, ?_, h2, d2, h3, d3⟩
  unfold Map.get
  rw [d1, Res.bind_ok, h1, Res.bind_ok]
  unfold Map.make
  rw [if_neg (by rw [h2.x, d2]; simp)]

/-- **C82** (systems).  In a part of a system, the hoppings are those which the system has between the chosen sites. -/
theorem C82_system (h : Hopping.HoppingBlocks) (hin : Hopping.Spec.InRange h.numSites h.blocks.flatten) (hnd : h.blocks.flatten.Nodup) :
    ∃ m, h.tocsr = .ok m ∧ SquareCsr h.numSites m ∧ ∀ idx ps, resolve h.numSites idx = .ok ps →
      ∃ t, sliceCsr m idx = .ok t ∧ ∀ k l f, Entry t k l f ↔ ∃ p q b, ps[k]? = some p ∧ ps[l]? = some q ∧ h.blocks[f]? = some b ∧ (⟨p, q⟩ : Hopping.COO) ∈ b := by
  obtain ⟨m, h1, h2, h3, h4, -⟩ := Hopping.C04_tocsr h hin hnd
  have hsq : SquareCsr h.numSites m := by
    refine ⟨h2, ?_⟩
    intro row hrow
    refine ⟨(h3 row hrow).imp fun h => Nat.ne_of_lt h, ?_⟩
    intro e he
    obtain ⟨i, hi⟩ := List.mem_iff_getElem?.1 hrow
    obtain ⟨b, hb, hc⟩ := (h4 i e.1 e.2).1 ⟨row, hi, he⟩
    exact (hin _ (List.mem_flatten.2 ⟨b, List.mem_of_getElem? hb, hc⟩)).2
  refine ⟨m, h1, hsq, ?_⟩
  intro idx ps hps
  obtain ⟨t, t1, -, t3⟩ := C82_matrix h.numSites m hsq idx ps hps
  refine ⟨t, t1, ?_⟩
  intro k l f
  rw [t3 k l f]
  constructor
  · rintro ⟨p, q, hp, hq, he⟩
    obtain ⟨b, hb, hc⟩ := (h4 p q f).1 he
    exact ⟨p, q, b, hp, hq, hb, hc⟩
  · rintro ⟨p, q, b, hp, hq, hb, hc⟩
    exact ⟨p, q, hp, hq, (h4 p q f).2 ⟨b, hb, hc⟩⟩

/-- **C82** (missing families): sites without families, e.g. of `SpatialMap(data, positions)`, can not be taken apart. -/
theorem C82_ids_witness (x y z : List F) (idx : Idx) (hy : y.length = x.length) (hz : z.length = x.length) (ps : List Nat) (h : resolve x.length idx = .ok ps) :
    (Sites.mk x y z none).get idx = .err .runtimeError := by
  unfold Sites.get
  simp only [(index_ok x _ rfl idx ps h).1, (index_ok y _ hy idx ps h).1, (index_ok z _ hz idx ps h).1, Res.bind_ok]

/-! ## Examples -/

/-- A chain of three sites with hoppings 0 and 1; the part with the sites 2 and 1. -/
example : Sized 3 (⟨⟨[0, 1, 2], [0, 0, 0], [0, 0, 0], some ⟨[0, 1, 0], []⟩⟩, [[(1, 0)], [(2, 1)], []], [⟨[3, 0, 0], [[], [], [(0, 0)]]⟩]⟩ : Structure Int) ∧
    (Structure.mk (F := Int) ⟨[0, 1, 2], [0, 0, 0], [0, 0, 0], some ⟨[0, 1, 0], []⟩⟩ [[(1, 0)], [(2, 1)], []] [⟨[3, 0, 0], [[], [], [(0, 0)]]⟩]).get (.ints [-1, 0]) =
      .ok ⟨⟨[2, 0], [0, 0], [0, 0], some ⟨[0, 0], []⟩⟩, [[], []], [⟨[3, 0, 0], [[(1, 0)], []]⟩]⟩ := by
  constructor
  · refine ⟨rfl, rfl, rfl, ⟨_, rfl, rfl⟩, ?_, ?_⟩
    · unfold SquareCsr
      decide
    · unfold SquareCsr
      decide
  · rfl

/-- Every second place, backwards. -/
example : resolve 5 (.slice none none (-2)) = .ok [4, 2, 0] ∧ resolve 5 (.slice (some 1) (some (-1)) 2) = .ok [1, 3] := by decide

end Verif.Binding.Slicing
