import Verif.Basic
import Mathlib.Algebra.BigOperators.Group.List.Basic
import Mathlib.Algebra.Group.Prod
import Mathlib.Data.List.Nodup
import Mathlib.Algebra.Order.Field.Rat
import Mathlib.Algebra.Order.AbsoluteValue.Basic
import Mathlib.Tactic.Abel
import Mathlib.Tactic.NormNum

/-!
# Periodic images in plots (C109)

Source: `pybinding/system.py`, `pybinding/support/fuzzy_set.py`.
-/

namespace Verif.Images

variable {V : Type} [AddCommGroup V]

/-! ## Model -/

/-- `FuzzySet.add`, fuzzy_set.py:42-44, with `__contains__`, fuzzy_set.py:23-24; `close` is `np.allclose` of the new item and one of the set. -/
def fuzzyAdd (close : V → V → Bool) (data : List V) (item : V) : List V :=
  if data.any (fun x => close item x) then data else data ++ [item]

/-- `FuzzySet.__iadd__`, fuzzy_set.py:26-29; `__add__`, fuzzy_set.py:31-37, and, from the empty list, `__init__`, fuzzy_set.py:8-15.  Simplified: `__add__` also changes its left operand (`copy.copy`
shares the list), which is not used again. -/
def fuzzyUnion (close : V → V → Bool) (a b : List V) : List V := b.foldl (fuzzyAdd close) a

/-- The sums of `itertools.combinations_with_replacement(base, level)` (Python documentation), system.py:440. -/
def combinations : List V → Nat → List V
  | _, 0 => [0]
  | [], _ + 1 => []
  | x :: xs, n + 1 => (combinations (x :: xs) n).map (x + ·) ++ combinations xs (n + 1)
termination_by xs n => (xs.length, n)

/-- `base_shifts`, system.py:439. -/
def baseShifts (boundaries : List V) : List V := boundaries ++ boundaries.map (- ·)

/-- `_make_shift_set`, system.py:434-444: the set of the level, and the sum of the sets of all levels up to it, which is the `blacklist` of the next. -/
def shiftSets (close : V → V → Bool) (boundaries : List V) : Nat → List V × List V
  | 0 => ([0], [0])
  | n + 1 =>
    let blacklist := (shiftSets close boundaries n).2
    let exclusive := (combinations (baseShifts boundaries) (n + 1)).filter (fun s => !blacklist.any (fun x => close s x))
    let set := fuzzyUnion close [] exclusive
    (set, fuzzyUnion close blacklist set)

/-- `_make_shift_set(boundaries, level)`, system.py:434-444. -/
def shiftSet (close : V → V → Bool) (boundaries : List V) (level : Nat) : List V := (shiftSets close boundaries level).1

/-- The offsets of the sites and hoppings drawn by `plot_periodic_boundaries`, system.py:472-477. -/
def drawnImages (close : V → V → Bool) (boundaries : List V) (numPeriods : Nat) : List V :=
  (List.range numPeriods).flatMap fun l => shiftSet close boundaries (l + 1)

/-- Lines of a boundary: its shift, the offset of the sites of the rows and the offset of the sites of the columns. -/
structure Bond (V : Type) where
  boundary : V
  row : V
  col : V

/-- Offsets of the ends of the lines in `plot_hoppings` with `boundary`, system.py:395-401. -/
def bondOf (offset : V) (positive : Bool) (shift : V) : Bond V :=
  if positive then ⟨shift, offset + shift, offset⟩ else ⟨shift, offset, offset - shift⟩

/-- The boundary hoppings drawn at one level by `plot_periodic_boundaries`, system.py:480-490. -/
def levelBonds (close : V → V → Bool) (boundaries : List V) (level : Nat) : List (Bond V) :=
  let prev := shiftSet close boundaries (level - 1)
  (fuzzyUnion close (shiftSet close boundaries level) prev).flatMap fun shift =>
    [true, false].flatMap fun positive =>
      boundaries.flatMap fun b =>
        if prev.any (fun x => close (shift + if positive then b else -b) x) then [bondOf shift positive b] else []

/-- All boundary hoppings drawn, system.py:480-490. -/
def drawnBonds (close : V → V → Bool) (boundaries : List V) (numPeriods : Nat) : List (Bond V) :=
  (List.range numPeriods).flatMap fun l => levelBonds close boundaries (l + 1)

/-! ## Specification -/

/-- An image that is reached by crossing `n` boundaries, in either direction. -/
def Reach (boundaries : List V) (n : Nat) (x : V) : Prop :=
  ∃ path : List V, path.length = n ∧ (∀ v ∈ path, v ∈ boundaries ∨ -v ∈ boundaries) ∧ path.sum = x

/-- The least number of boundaries between the system and an image. -/
def Steps (boundaries : List V) (n : Nat) (x : V) : Prop := Reach boundaries n x ∧ ∀ m < n, ¬ Reach boundaries m x

/-- Different images within reach are not taken for equal. -/
def Separated (close : V → V → Bool) (boundaries : List V) (n : Nat) : Prop :=
  ∀ x y i j, i ≤ n → j ≤ n → Reach boundaries i x → Reach boundaries j y → (close x y = true ↔ x = y)

/-! ## Lemmas -/

theorem mem_base {bs : List V} {v : V} : v ∈ baseShifts bs ↔ v ∈ bs ∨ -v ∈ bs := by
  unfold baseShifts
  rw [List.mem_append, List.mem_map]
  constructor
  · rintro (h | ⟨w, hw, rfl⟩)
    · exact Or.inl h
    · right; rwa [neg_neg]
  · rintro (h | h)
    · exact Or.inl h
    · exact Or.inr ⟨-v, h, neg_neg v⟩

theorem mem_combinations (xs : List V) (n : Nat) (x : V) :
    x ∈ combinations xs n ↔ ∃ l : List V, l.length = n ∧ (∀ v ∈ l, v ∈ xs) ∧ l.sum = x := by
  classical
  induction xs, n using combinations.induct generalizing x with
  | case1 xs =>
    rw [combinations]
    constructor
    · intro h
      exact ⟨[], rfl, by simp, by simpa using (List.mem_singleton.1 h).symm⟩
    · rintro ⟨l, hl, -, rfl⟩
      rw [List.length_eq_zero_iff.1 hl]; simp
  | case2 n =>
    rw [combinations]
    constructor
    · intro h; exact absurd h (List.not_mem_nil)
    · rintro ⟨l, hl, h, -⟩
      cases l with
      | nil => simp at hl
      | cons a l => exact absurd (h a (by simp)) (List.not_mem_nil)
  | case3 y ys n ih1 ih2 =>
    rw [combinations, List.mem_append, List.mem_map, ih2]
    constructor
    · rintro (⟨w, hw, rfl⟩ | ⟨l, hl, h, rfl⟩)
      · obtain ⟨l, hl, h, rfl⟩ := (ih1 w).1 hw
        refine ⟨y :: l, by simp [hl], ?_, by simp⟩
        intro v hv
        rcases List.mem_cons.1 hv with rfl | hv
        · simp
        · exact h v hv
      · exact ⟨l, hl, fun v hv => List.mem_cons_of_mem _ (h v hv), rfl⟩
    · rintro ⟨l, hl, h, rfl⟩
      by_cases hy : y ∈ l
      · left
        refine ⟨(l.erase y).sum, (ih1 _).2 ⟨l.erase y, ?_, fun v hv => h v (List.mem_of_mem_erase hv), rfl⟩, ?_⟩
        · rw [List.length_erase_of_mem hy, hl]; rfl
        · exact List.sum_erase hy
      · right
        refine ⟨l, hl, fun v hv => ?_, rfl⟩
        rcases List.mem_cons.1 (h v hv) with rfl | h'
        · exact absurd hv hy
        · exact h'

theorem mem_fuzzyUnion {close : V → V → Bool} {P : V → Prop} (hc : ∀ x y, P x → P y → (close x y = true ↔ x = y)) (b : List V) :
    ∀ a : List V, (∀ x ∈ a, P x) → (∀ x ∈ b, P x) → (∀ x, x ∈ fuzzyUnion close a b ↔ x ∈ a ∨ x ∈ b) ∧ (a.Nodup → (fuzzyUnion close a b).Nodup) := by
  induction b with
  | nil => intro a _ _; simp [fuzzyUnion]
  | cons y b ih =>
    intro a ha hb
    have hy : a.any (fun x => close y x) = true ↔ y ∈ a := by
      rw [List.any_eq_true]
      constructor
      · rintro ⟨x, hx, h⟩
        rwa [(hc y x (hb y (by simp)) (ha x hx)).1 h]
      · intro h; exact ⟨y, h, (hc y y (ha y h) (ha y h)).2 rfl⟩
    have hb' : ∀ x ∈ b, P x := fun x hx => hb x (List.mem_cons_of_mem _ hx)
    have e : fuzzyUnion close a (y :: b) = fuzzyUnion close (fuzzyAdd close a y) b := rfl
    rw [e]
    unfold fuzzyAdd
    by_cases h : y ∈ a
    · rw [if_pos (hy.2 h)]
      obtain ⟨i1, i2⟩ := ih a ha hb'
      refine ⟨fun x => ?_, i2⟩
      rw [i1, List.mem_cons]
      constructor
      · rintro (h' | h') <;> simp [h']
      · rintro (h' | rfl | h')
        · exact Or.inl h'
        · exact Or.inl h
        · exact Or.inr h'
    · rw [if_neg (fun h' => h (hy.1 h'))]
      have ha' : ∀ x ∈ a ++ [y], P x := by
        intro x hx
        rcases List.mem_append.1 hx with hx | hx
        · exact ha x hx
        · rw [List.mem_singleton.1 hx]; exact hb y (by simp)
      obtain ⟨i1, i2⟩ := ih (a ++ [y]) ha' hb'
      refine ⟨fun x => ?_, fun hn => i2 ?_⟩
      · rw [i1, List.mem_append, List.mem_singleton, List.mem_cons, or_assoc]
      · rw [List.nodup_append]
        refine ⟨hn, by simp, ?_⟩
        intro u hu w hw
        rw [List.mem_singleton.1 hw]
        rintro rfl
        exact h hu

theorem reach_iff (bs : List V) (n : Nat) (x : V) : x ∈ combinations (baseShifts bs) n ↔ Reach bs n x := by
  rw [mem_combinations]
  unfold Reach
  simp only [mem_base]

theorem reach_zero (bs : List V) (x : V) : Reach bs 0 x ↔ x = 0 := by
  constructor
  · rintro ⟨l, hl, -, rfl⟩; rw [List.length_eq_zero_iff.1 hl]; rfl
  · rintro rfl; exact ⟨[], rfl, by simp, rfl⟩

theorem Reach.step {bs : List V} {n : Nat} {x b : V} (h : Reach bs n x) (hb : b ∈ bs ∨ -b ∈ bs) : Reach bs (n + 1) (x + b) := by
  obtain ⟨l, hl, h, rfl⟩ := h
  refine ⟨b :: l, by simp [hl], ?_, by simp [add_comm]⟩
  intro v hv
  rcases List.mem_cons.1 hv with rfl | hv
  · exact hb
  · exact h v hv

theorem Steps.unique {bs : List V} {i j : Nat} {x : V} (hi : Steps bs i x) (hj : Steps bs j x) : i = j := by
  rcases Nat.lt_trichotomy i j with h | h | h
  · exact absurd hi.1 (hj.2 i h)
  · exact h
  · exact absurd hj.1 (hi.2 j h)

theorem Reach.steps {bs : List V} {n : Nat} {x : V} (h : Reach bs n x) : ∃ m, m ≤ n ∧ Steps bs m x := by
  classical
  exact ⟨Nat.find ⟨n, h⟩, Nat.find_le h, Nat.find_spec (⟨n, h⟩ : ∃ n, Reach bs n x), fun m hm => Nat.find_min _ hm⟩

theorem shiftSets_spec {close : V → V → Bool} {bs : List V} {N : Nat} (hs : Separated close bs N) (n : Nat) (hn : n ≤ N) :
    (∀ x, x ∈ (shiftSets close bs n).1 ↔ Steps bs n x) ∧ (shiftSets close bs n).1.Nodup ∧ (∀ x, x ∈ (shiftSets close bs n).2 ↔ ∃ m ≤ n, Reach bs m x) := by
  have hc : ∀ x y, (∃ i ≤ N, Reach bs i x) → (∃ i ≤ N, Reach bs i y) → (close x y = true ↔ x = y) := by
    rintro x y ⟨i, hi, hx⟩ ⟨j, hj, hy⟩
    exact hs x y i j hi hj hx hy
  induction n with
  | zero =>
    refine ⟨fun x => ?_, by simp [shiftSets], fun x => ?_⟩
    · simp only [shiftSets, List.mem_singleton, Steps, reach_zero]
      constructor
      · rintro rfl; exact ⟨rfl, fun m hm => by omega⟩
      · exact fun h => h.1
    · simp only [shiftSets, List.mem_singleton]
      constructor
      · rintro rfl; exact ⟨0, le_rfl, (reach_zero bs 0).2 rfl⟩
      · rintro ⟨m, hm, h⟩
        obtain rfl : m = 0 := by omega
        exact (reach_zero bs x).1 h
  | succ n ih =>
    obtain ⟨-, -, ih⟩ := ih (by omega)
    set black := (shiftSets close bs n).2 with hblack
    have hex : ∀ x, x ∈ (combinations (baseShifts bs) (n + 1)).filter (fun s => !black.any (fun x => close s x)) ↔ Steps bs (n + 1) x := by
      intro x
      rw [List.mem_filter, reach_iff, Bool.not_eq_true', ← Bool.not_eq_true, List.any_eq_true]
      unfold Steps
      refine and_congr_right fun hr => ?_
      constructor
      · intro h m hm hx
        exact h ⟨x, (ih x).2 ⟨m, by omega, hx⟩, (hc x x ⟨_, hn, hr⟩ ⟨_, hn, hr⟩).2 rfl⟩
      · rintro h ⟨y, hy, hxy⟩
        obtain ⟨m, hm, hy'⟩ := (ih y).1 hy
        rw [(hc x y ⟨_, hn, hr⟩ ⟨m, by omega, hy'⟩)] at hxy
        subst hxy
        exact h m (by omega) hy'
    have hset := mem_fuzzyUnion hc ((combinations (baseShifts bs) (n + 1)).filter (fun s => !black.any (fun x => close s x))) [] (by simp) (fun x hx => ⟨n + 1, hn, ((hex x).1 hx).1⟩)
    have hmem : ∀ x, x ∈ (shiftSets close bs (n + 1)).1 ↔ Steps bs (n + 1) x := by
      intro x
      rw [← hex x]
      simp only [shiftSets]
      rw [← hblack, hset.1]
      simp
    refine ⟨hmem, ?_, fun x => ?_⟩
    · simp only [shiftSets]
      rw [← hblack]
      exact hset.2 List.nodup_nil
    · have h2 := mem_fuzzyUnion hc (shiftSets close bs (n + 1)).1 black (fun x hx => by obtain ⟨m, hm, h⟩ := (ih x).1 hx; exact ⟨m, by omega, h⟩)
        (fun x hx => ⟨n + 1, hn, ((hmem x).1 hx).1⟩)
      have e : (shiftSets close bs (n + 1)).2 = fuzzyUnion close black (shiftSets close bs (n + 1)).1 := rfl
      rw [e, h2.1, ih, hmem]
      constructor
      · rintro (⟨m, hm, h⟩ | h)
        · exact ⟨m, by omega, h⟩
        · exact ⟨n + 1, le_rfl, h.1⟩
      · rintro ⟨m, hm, h⟩
        by_cases hx : ∃ m ≤ n, Reach bs m x
        · exact Or.inl hx
        · right
          have : m = n + 1 := by
            by_contra hne
            exact hx ⟨m, by omega, h⟩
          subst this
          exact ⟨h, fun k hk hk' => hx ⟨k, by omega, hk'⟩⟩

/-! ## C109 -/

/-- **C109**: a plot with `num_periods = n` shows exactly the images of the system which are reached by crossing between one and `n` boundaries, each of them once. -/
theorem C109_images {close : V → V → Bool} {bs : List V} {n : Nat} (hs : Separated close bs n) :
    (∀ x, x ∈ drawnImages close bs n ↔ x ≠ 0 ∧ ∃ m ≤ n, Reach bs m x) ∧ (drawnImages close bs n).Nodup := by
  have key : ∀ l < n, ∀ x, x ∈ shiftSet close bs (l + 1) ↔ Steps bs (l + 1) x := fun l hl => (shiftSets_spec hs (l + 1) (by omega)).1
  constructor
  · intro x
    unfold drawnImages
    rw [List.mem_flatMap]
    constructor
    · rintro ⟨l, hl, hx⟩
      have hl := List.mem_range.1 hl
      have h := (key l hl x).1 hx
      refine ⟨?_, l + 1, by omega, h.1⟩
      rintro rfl
      exact h.2 0 (by omega) ((reach_zero bs 0).2 rfl)
    · rintro ⟨h0, m, hm, hx⟩
      obtain ⟨k, hk, h⟩ := hx.steps
      cases k with
      | zero => exact absurd ((reach_zero bs x).1 h.1) h0
      | succ k => exact ⟨k, List.mem_range.2 (by omega), (key k (by omega) x).2 h⟩
  · unfold drawnImages
    rw [List.nodup_flatMap]
    refine ⟨fun l hl => (shiftSets_spec hs (l + 1) (by have := List.mem_range.1 hl; omega)).2.1, ?_⟩
    rw [List.pairwise_iff_getElem]
    intro i j hi hj hij
    simp only [List.length_range] at hi hj
    simp only [List.getElem_range, Function.onFun]
    intro x h1 h2
    have := Steps.unique ((key i hi x).1 h1) ((key j hj x).1 h2)
    omega

/-- **C109**: boundary hoppings are drawn exactly between the images which are shown (and the system) and differ by the shift of the boundary, except between two images which are both `n` boundaries
away. -/
theorem C109_bonds {close : V → V → Bool} {bs : List V} {n : Nat} (hs : Separated close bs (n + 1)) (b r c : V) :
    (⟨b, r, c⟩ : Bond V) ∈ drawnBonds close bs n ↔
      b ∈ bs ∧ r = c + b ∧ ∃ i j, Steps bs i r ∧ Steps bs j c ∧ i ≤ n ∧ j ≤ n ∧ (i < n ∨ j < n) := by
  have hc : ∀ x y, (∃ i ≤ n + 1, Reach bs i x) → (∃ i ≤ n + 1, Reach bs i y) → (close x y = true ↔ x = y) := by
    rintro x y ⟨i, hi, hx⟩ ⟨j, hj, hy⟩
    exact hs x y i j hi hj hx hy
  have key : ∀ l ≤ n, ∀ x, x ∈ shiftSet close bs l ↔ Steps bs l x := fun l hl => (shiftSets_spec hs l (by omega)).1
  have both : ∀ l < n, ∀ x, x ∈ fuzzyUnion close (shiftSet close bs (l + 1)) (shiftSet close bs l) ↔ Steps bs (l + 1) x ∨ Steps bs l x := by
    intro l hl x
    rw [(mem_fuzzyUnion hc _ _ (fun x hx => ⟨l + 1, by omega, ((key (l + 1) (by omega) x).1 hx).1⟩) (fun x hx => ⟨l, by omega, ((key l (by omega) x).1 hx).1⟩)).1,
      key (l + 1) (by omega), key l (by omega)]
  have any : ∀ l < n, ∀ x m, m ≤ n + 1 → Reach bs m x → ((shiftSet close bs l).any (fun y => close x y) = true ↔ Steps bs l x) := by
    intro l hl x m hm hx
    rw [List.any_eq_true]
    constructor
    · rintro ⟨y, hy, h⟩
      have hy' := (key l (by omega) y).1 hy
      rw [hc x y ⟨m, hm, hx⟩ ⟨l, by omega, hy'.1⟩] at h
      rwa [h]
    · intro h
      exact ⟨x, (key l (by omega) x).2 h, (hc x x ⟨m, hm, hx⟩ ⟨m, hm, hx⟩).2 rfl⟩
  have level : ∀ l < n, ((⟨b, r, c⟩ : Bond V) ∈ levelBonds close bs (l + 1) ↔
      b ∈ bs ∧ r = c + b ∧ ((Steps bs l r ∧ (Steps bs (l + 1) c ∨ Steps bs l c)) ∨ (Steps bs l c ∧ (Steps bs (l + 1) r ∨ Steps bs l r)))) := by
    intro l hl
    unfold levelBonds
    simp only [Nat.add_sub_cancel, List.mem_flatMap, both l hl]
    constructor
    · rintro ⟨s, hs', p, -, b', hb, hmem⟩
      obtain ⟨m, hm, hsm⟩ : ∃ m ≤ n, Reach bs m s := by
        rcases hs' with h | h
        · exact ⟨l + 1, by omega, h.1⟩
        · exact ⟨l, by omega, h.1⟩
      cases p with
      | true =>
        rw [if_pos rfl] at hmem
        split_ifs at hmem with h
        · rw [any l hl _ (m + 1) (by omega) (hsm.step (Or.inl hb))] at h
          simp only [bondOf, if_true, List.mem_singleton, Bond.mk.injEq] at hmem
          obtain ⟨rfl, rfl, rfl⟩ := hmem
          exact ⟨hb, rfl, Or.inl ⟨h, hs'⟩⟩
        · simp at hmem
      | false =>
        simp only [Bool.false_eq_true, if_false] at hmem
        split_ifs at hmem with h
        · rw [any l hl _ (m + 1) (by omega) (hsm.step (Or.inr (by rwa [neg_neg])))] at h
          simp only [bondOf, Bool.false_eq_true, if_false, List.mem_singleton, Bond.mk.injEq] at hmem
          obtain ⟨rfl, rfl, rfl⟩ := hmem
          exact ⟨hb, by abel, Or.inr ⟨by rwa [sub_eq_add_neg], hs'⟩⟩
        · simp at hmem
    · rintro ⟨hb, rfl, ⟨h1, h2⟩ | ⟨h1, h2⟩⟩
      · refine ⟨c, h2, true, by simp, b, hb, ?_⟩
        rw [if_pos rfl, if_pos ((any l hl _ l (by omega) h1.1).2 h1)]
        simp [bondOf]
      · refine ⟨c + b, h2, false, by simp, b, hb, ?_⟩
        have e : c + b + -b = c := by abel
        simp only [Bool.false_eq_true, if_false]
        rw [e, if_pos ((any l hl _ l (by omega) h1.1).2 h1)]
        simp [bondOf]
  unfold drawnBonds
  rw [List.mem_flatMap]
  constructor
  · rintro ⟨l, hl, h⟩
    have hl := List.mem_range.1 hl
    obtain ⟨hb, hr, h⟩ := (level l hl).1 h
    refine ⟨hb, hr, ?_⟩
    rcases h with ⟨h1, h2 | h2⟩ | ⟨h1, h2 | h2⟩
    · exact ⟨l, l + 1, h1, h2, by omega, by omega, by omega⟩
    · exact ⟨l, l, h1, h2, by omega, by omega, by omega⟩
    · exact ⟨l + 1, l, h2, h1, by omega, by omega, by omega⟩
    · exact ⟨l, l, h2, h1, by omega, by omega, by omega⟩
  · rintro ⟨hb, rfl, i, j, hi, hj, hin, hjn, hlt⟩
    have d1 : i ≤ j + 1 := by
      by_contra hc'
      exact hi.2 (j + 1) (by omega) (hj.1.step (Or.inl hb))
    have d2 : j ≤ i + 1 := by
      by_contra hc'
      refine hj.2 (i + 1) (by omega) ?_
      have := hi.1.step (b := -b) (Or.inr (by rwa [neg_neg]))
      rwa [add_neg_cancel_right] at this
    rcases Nat.lt_or_ge j i with h | h
    · obtain rfl : i = j + 1 := by omega
      exact ⟨j, List.mem_range.2 (by omega), (level j (by omega)).2 ⟨hb, rfl, Or.inr ⟨hj, Or.inl hi⟩⟩⟩
    · refine ⟨i, List.mem_range.2 (by omega), (level i (by omega)).2 ⟨hb, rfl, Or.inl ⟨hi, ?_⟩⟩⟩
      rcases Nat.lt_or_ge i j with h' | h'
      · obtain rfl : j = i + 1 := by omega
        exact Or.inl hj
      · obtain rfl : j = i := by omega
        exact Or.inr hj

theorem two_le_count {α β : Type} [DecidableEq β] {l : List α} {f : α → List β} {x y : α} (hx : x ∈ l) (hy : y ∈ l) (hxy : x ≠ y) {z : β} (h1 : z ∈ f x) (h2 : z ∈ f y) :
    2 ≤ (l.flatMap f).count z := by
  induction l with
  | nil => exact absurd hx (List.not_mem_nil)
  | cons a l ih =>
    rw [List.flatMap_cons, List.count_append]
    rcases List.mem_cons.1 hx with rfl | hx'
    · have hy' : y ∈ l := (List.mem_cons.1 hy).resolve_left (fun h => hxy h.symm)
      have a1 := List.count_pos_iff.2 h1
      have a2 := List.count_pos_iff.2 (List.mem_flatMap.2 ⟨y, hy', h2⟩)
      omega
    · rcases List.mem_cons.1 hy with rfl | hy'
      · have a1 := List.count_pos_iff.2 h2
        have a2 := List.count_pos_iff.2 (List.mem_flatMap.2 ⟨x, hx', h1⟩)
        omega
      · have := ih hx' hy'
        omega

/-- **C109**: the lines between two images which are equally far from the system, and not at the edge of the plot, are drawn more than once. -/
theorem C109_twice [DecidableEq (Bond V)] {close : V → V → Bool} {bs : List V} {l : Nat} (hs : Separated close bs (l + 1)) {b c : V} (hb : b ∈ bs) (h0 : b ≠ 0)
    (hr : Steps bs l (c + b)) (hc : Steps bs l c) : 2 ≤ (levelBonds close bs (l + 1)).count ⟨b, c + b, c⟩ := by
  have key : ∀ k ≤ l + 1, ∀ x, x ∈ shiftSet close bs k ↔ Steps bs k x := fun k hk => (shiftSets_spec hs k hk).1
  have hcl : ∀ x y, (∃ i ≤ l + 1, Reach bs i x) → (∃ i ≤ l + 1, Reach bs i y) → (close x y = true ↔ x = y) := by
    rintro x y ⟨i, hi, hx⟩ ⟨j, hj, hy⟩
    exact hs x y i j hi hj hx hy
  have both : ∀ x, Steps bs l x → x ∈ fuzzyUnion close (shiftSet close bs (l + 1)) (shiftSet close bs l) := by
    intro x hx
    rw [(mem_fuzzyUnion hcl _ _ (fun x hx => ⟨l + 1, le_rfl, ((key (l + 1) le_rfl x).1 hx).1⟩) (fun x hx => ⟨l, by omega, ((key l (by omega) x).1 hx).1⟩)).1]
    exact Or.inr ((key l (by omega) x).2 hx)
  have any : ∀ x, Steps bs l x → (shiftSet close bs l).any (fun y => close x y) = true := by
    intro x hx
    exact List.any_eq_true.2 ⟨x, (key l (by omega) x).2 hx, (hcl x x ⟨l, by omega, hx.1⟩ ⟨l, by omega, hx.1⟩).2 rfl⟩
  unfold levelBonds
  simp only [Nat.add_sub_cancel]
  refine two_le_count (both c hc) (both (c + b) hr) (fun h => h0 (by simpa using h.symm)) ?_ ?_
  · rw [List.mem_flatMap]
    refine ⟨true, by simp, ?_⟩
    rw [List.mem_flatMap]
    refine ⟨b, hb, ?_⟩
    rw [if_pos rfl, if_pos (any _ hr)]
    simp [bondOf]
  · rw [List.mem_flatMap]
    refine ⟨false, by simp, ?_⟩
    rw [List.mem_flatMap]
    refine ⟨b, hb, ?_⟩
    have e : c + b + -b = c := by abel
    simp only [Bool.false_eq_true, if_false]
    rw [e, if_pos (any _ hc)]
    simp [bondOf]

/-! ## Tolerance -/

/-- `np.allclose(item, x, rtol, atol)` with the default tolerances, fuzzy_set.py:8, 24 (numpy documentation), for two coordinates. -/
def allclose (item x : ℚ × ℚ) : Bool :=
  decide (|item.1 - x.1| ≤ 1 / 10 ^ 5 + 1 / 10 ^ 3 * |x.1|) && decide (|item.2 - x.2| ≤ 1 / 10 ^ 5 + 1 / 10 ^ 3 * |x.2|)

/-- Without `Separated` the claim is false: the tolerance is relative, so of two boundaries of a large system whose shifts differ by half a nanometre one image is not drawn. -/
theorem C109_tolerance_witness :
    ((2001 / 2, 1999 / 2) : ℚ × ℚ) ∉ drawnImages allclose [(1000, 1000), (2001 / 2, 1999 / 2)] 1 ∧
    Reach [((1000, 1000) : ℚ × ℚ), (2001 / 2, 1999 / 2)] 1 (2001 / 2, 1999 / 2) := by
  constructor
  · have e : drawnImages allclose [((1000, 1000) : ℚ × ℚ), (2001 / 2, 1999 / 2)] 1 = [(1000, 1000), (-1000, -1000)] := by
      simp [drawnImages, shiftSet, shiftSets, combinations, baseShifts, fuzzyUnion, allclose, List.range_succ]
      have a1 : fuzzyAdd allclose [] ((1000, 1000) : ℚ × ℚ) = [(1000, 1000)] := by simp [fuzzyAdd]
      have a2 : fuzzyAdd allclose [(1000, 1000)] ((2001 / 2, 1999 / 2) : ℚ × ℚ) = [(1000, 1000)] := by
        unfold fuzzyAdd; rw [if_pos]; simp [allclose]; norm_num [abs_le]
      have a3 : fuzzyAdd allclose [(1000, 1000)] ((-1000, -1000) : ℚ × ℚ) = [(1000, 1000), (-1000, -1000)] := by
        unfold fuzzyAdd; rw [if_neg]; · rfl
        simp [allclose]; norm_num
      have a4 : fuzzyAdd allclose [(1000, 1000), (-1000, -1000)] ((-(2001 / 2), -(1999 / 2)) : ℚ × ℚ) = [(1000, 1000), (-1000, -1000)] := by
        unfold fuzzyAdd; rw [if_pos]; simp [allclose]; norm_num [abs_le]
      norm_num [abs_of_pos, abs_of_neg]
      rw [a1, a2, a3, a4]
    rw [e]
    simp
    norm_num
  · exact ⟨[(2001 / 2, 1999 / 2)], rfl, by simp, by simp⟩

/-! ## Non-vacuity -/

/-- The comparison of integers separates everything. -/
theorem separated_int (bs : List (ℤ × ℤ)) (n : Nat) : Separated (fun x y => decide (x = y)) bs n := fun x y _ _ _ _ _ _ => by simp

example : ((1, 1) : ℤ × ℤ) ∈ drawnImages (fun x y => decide (x = y)) [(1, 0), (0, 1)] 2 :=
  ((C109_images (separated_int _ 2)).1 (1, 1)).2 ⟨by simp, 2, le_rfl, [(1, 0), (0, 1)], rfl, by simp, rfl⟩

example : (⟨(1, 0), (1, 0), (0, 0)⟩ : Bond (ℤ × ℤ)) ∈ drawnBonds (fun x y => decide (x = y)) [(1, 0), (0, 1)] 1 := by
  rw [C109_bonds (separated_int _ 2)]
  have h0 : Steps [((1, 0) : ℤ × ℤ), (0, 1)] 0 (0, 0) := ⟨(reach_zero _ _).2 rfl, fun m hm => by omega⟩
  refine ⟨by simp, rfl, 1, 0, ⟨⟨[(1, 0)], rfl, by simp, rfl⟩, fun m hm => ?_⟩, h0, le_rfl, by omega, by omega⟩
  obtain rfl : m = 0 := by omega
  rw [reach_zero]
  simp

/-- A triangular lattice: the images at (1, 0) and (1, 1) are next to each other, both one boundary away. -/
example [DecidableEq (Bond (ℤ × ℤ))] : 2 ≤ (levelBonds (V := ℤ × ℤ) (fun x y => decide (x = y)) [(1, 0), (0, 1), (1, 1)] 2).count ⟨(0, 1), (1, 0) + (0, 1), (1, 0)⟩ := by
  refine C109_twice (separated_int _ 2) (by simp) (by simp) ⟨⟨[(1, 1)], rfl, by simp, rfl⟩, fun m hm => ?_⟩ ⟨⟨[(1, 0)], rfl, by simp, rfl⟩, fun m hm => ?_⟩
  all_goals
    obtain rfl : m = 0 := by omega
    rw [reach_zero]
    simp

end Verif.Images
