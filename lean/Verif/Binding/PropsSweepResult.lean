import Verif.Binding.SweepResult
import Verif.Binding.PropsSlicing
import Mathlib.Tactic.Ring
import Mathlib.Tactic.FieldSimp
import Mathlib.Tactic.Linarith

/-!
# C93: results of sweeps keep every value at its parameters
-/

namespace Verif.Binding.SweepResult

open Verif.Binding.Slicing (Idx resolve gather gather_eq mem_trues trues_sorted resolve_lt wrap_cases)

variable {A D : Type}

/-! ## Specification -/

/-- The array of data has a row for each value of `x` and a column for each value of `y`. -/
def Shaped (s : Sweep A D) : Prop := s.data.rows = s.x.length ∧ s.data.cols = s.y.length

/-- The sweep has the result `d` for the parameters `u` and `v`. -/
def Value (s : Sweep A D) (u v : A) (d : D) : Prop :=
  ∃ i j, s.x[i]? = some u ∧ s.y[j]? = some v ∧ s.data.e i j = d

/-- The indices select rows and columns, independently of each other: the second one is a slice, or the first one is a
slice and the second one not a number. -/
def Outer (ix iy : Item) : Prop := iy.isSlice = true ∨ (ix.isSlice = true ∧ iy.isInt = false)

/-- `t` consists of the places `px` and `py` of `s`. -/
def Picked (s t : Sweep A D) (px py : List Nat) : Prop :=
  Shaped t ∧ ∀ i j, i < px.length → j < py.length → t.data.e i j = s.data.e (px.getD i 0) (py.getD j 0)

/-! ## Selection -/

theorem places_lt {n : Nat} {it : Item} {ps : List Nat} (h : it.places n = .ok ps) : ∀ p ∈ ps, p < n := by
  cases it with
  | int i =>
    change (Slicing.wrap n i).bind (fun p => .ok [p]) = .ok ps at h
    rcases wrap_cases n i with ⟨p, h1, h2, -⟩ | ⟨h1, -⟩
    · rw [h1, Res.bind, Res.ok.injEq] at h
      intro q hq
      rw [← h, List.mem_singleton] at hq
      omega
    · rw [h1] at h; simp [Res.bind] at h
  | arr idx => exact resolve_lt n idx ps h

theorem places_int {n : Nat} {it : Item} {ps : List Nat} (h : it.places n = .ok ps) (hi : it.isInt = true) : ps.length = 1 := by
  cases it with
  | int i =>
    change (Slicing.wrap n i).bind (fun p => .ok [p]) = .ok ps at h
    rcases wrap_cases n i with ⟨p, h1, h2, -⟩ | ⟨h1, -⟩
    · rw [h1, Res.bind, Res.ok.injEq] at h
      rw [← h]
      rfl
    · rw [h1] at h; simp [Res.bind] at h
  | arr idx => simp [Item.isInt] at hi

theorem gather_length {α : Type} {l : List α} {ps : List Nat} (h : ∀ p ∈ ps, p < l.length) : (gather l ps).length = ps.length :=
  (gather_eq l ps h).1

theorem gather_get {α : Type} {l : List α} {ps : List Nat} (h : ∀ p ∈ ps, p < l.length) (i : Nat) :
    (gather l ps)[i]? = (ps[i]?).bind fun p => l[p]? := by
  rcases hp : ps[i]? with _ | p
  · rw [List.getElem?_eq_none_iff] at hp
    rw [List.getElem?_eq_none (by rw [gather_length h]; exact hp)]
    rfl
  · exact (gather_eq l ps h).2 i p hp

/-- **C93**: when indexing gives the values at the selected parameters.  If the indices are valid (and can be combined), the
result has the selected values of `x` and `y`; its data are those of the selected rows and columns if and only if the indices
select rows and columns independently, or there is just one row. -/
theorem C93_getitem_partial (s : Sweep A D) (hs : Shaped s) (ix iy : Item) (px py : List Nat) (hx : ix.places s.x.length = .ok px)
    (hy : iy.places s.y.length = .ok py) (hc : Outer ix iy ∨ ix.isSlice = true ∨ px.length = py.length ∨ px.length = 1 ∨ py.length = 1) :
    ∃ t, s.get ix iy = .ok t ∧ t.x = gather s.x px ∧ t.y = gather s.y py ∧ (Picked s t px py ↔ Outer ix iy ∨ px.length = 1) := by
  have lx := gather_length (places_lt hx)
  have ly := gather_length (places_lt hy)
  have key : ∀ g, select s.data ix iy px py = .ok g → ∃ t, s.get ix iy = .ok t ∧ t.x = gather s.x px ∧ t.y = gather s.y py ∧ t.data = g := by
    intro g hg
    refine ⟨⟨gather s.x px, gather s.y py, g⟩, ?_, rfl, rfl, rfl⟩
    unfold Sweep.get
    rw [hs.1, hs.2, hx, hy]
    show (select s.data ix iy px py).bind _ = _
    rw [hg]
    rfl
  have fin : ∀ g, select s.data ix iy px py = .ok g →
      ((g.rows = px.length ∧ g.cols = py.length ∧ ∀ i j, i < px.length → j < py.length → g.e i j = s.data.e (px.getD i 0) (py.getD j 0))
        ↔ Outer ix iy ∨ px.length = 1) →
      ∃ t, s.get ix iy = .ok t ∧ t.x = gather s.x px ∧ t.y = gather s.y py ∧ (Picked s t px py ↔ Outer ix iy ∨ px.length = 1) := by
    intro g hg h
    obtain ⟨t, t1, t2, t3, t4⟩ := key g hg
    refine ⟨t, t1, t2, t3, ?_⟩
    rw [← h]
    unfold Picked Shaped
    rw [t2, t3, t4, lx, ly, and_assoc]
  have one : ∀ {i n : Nat}, i < n → n = 1 → i = 0 := by omega
  by_cases c1 : ix.isInt = true ∧ iy.isSlice = true
  · refine fin (asRow py.length fun k => s.data.e (px.getD 0 0) (py.getD k 0)) ?_ ?_
    · unfold select
      rw [c1.1, c1.2]; rfl
    · have hl := places_int hx c1.1
      constructor
      · intro _; exact Or.inr hl
      · intro _
        refine ⟨hl.symm, rfl, fun i j hi hj => ?_⟩
        rw [one hi hl]; rfl
  have c1' : (ix.isInt && iy.isSlice) = false := by
    cases h1 : ix.isInt <;> cases h2 : iy.isSlice <;> simp_all
  by_cases c2 : ix.isSlice = true ∧ iy.isInt = true
  · have hl := places_int hy c2.2
    have hsl : iy.isSlice = false := by
      cases iy with
      | int i => rfl
      | arr idx => simp [Item.isInt] at c2
    refine fin (asRow px.length fun k => s.data.e (px.getD k 0) (py.getD 0 0)) ?_ ?_
    · unfold select
      rw [c1', c2.1, c2.2]; rfl
    · have ho : ¬ Outer ix iy := by
        unfold Outer
        rw [hsl, c2.2]; simp
      constructor
      · rintro ⟨h1, -, -⟩
        exact Or.inr h1.symm
      · rintro (h | h)
        · exact absurd h ho
        · refine ⟨h.symm, by rw [hl]; exact h, fun i j hi hj => ?_⟩
          rw [one hi h, one hj hl]; rfl
  have c2' : (ix.isSlice && iy.isInt) = false := by
    cases h1 : ix.isSlice <;> cases h2 : iy.isInt <;> simp_all
  by_cases c3 : ix.isSlice = true ∨ iy.isSlice = true
  · refine fin ⟨px.length, py.length, fun i j => s.data.e (px.getD i 0) (py.getD j 0)⟩ ?_ ?_
    · unfold select
      rw [c1', c2']
      have : (ix.isSlice || iy.isSlice) = true := by simpa using c3
      rw [this]; rfl
    · constructor
      · intro _
        left
        rcases c3 with h | h
        · right
          refine ⟨h, ?_⟩
          rw [h] at c2'
          simpa using c2'
        · exact Or.inl h
      · intro _
        exact ⟨rfl, rfl, fun _ _ _ _ => rfl⟩
  have c3' : (ix.isSlice || iy.isSlice) = false := by
    cases h1 : ix.isSlice <;> cases h2 : iy.isSlice <;> simp_all
  have ho : ¬ Outer ix iy := by
    unfold Outer
    rw [Bool.or_eq_false_iff] at c3'
    rw [c3'.1, c3'.2]; simp
  have hns : ix.isSlice = false := by
    rw [Bool.or_eq_false_iff] at c3'
    exact c3'.1
  by_cases c4 : px.length = py.length
  · refine fin (asRow px.length fun k => s.data.e (px.getD k 0) (py.getD k 0)) ?_ ?_
    · unfold select
      rw [c1', c2', c3', if_pos c4]; rfl
    · constructor
      · rintro ⟨h1, -, -⟩
        exact Or.inr h1.symm
      · rintro (h | h)
        · exact absurd h ho
        · refine ⟨h.symm, c4, fun i j hi hj => ?_⟩
          rw [one hi h, one hj (c4 ▸ h)]; rfl
  by_cases c5 : px.length = 1
  · refine fin (asRow py.length fun k => s.data.e (px.getD 0 0) (py.getD k 0)) ?_ ?_
    · unfold select
      rw [c1', c2', c3', if_neg c4, if_pos c5]; rfl
    · constructor
      · intro _; exact Or.inr c5
      · intro _
        refine ⟨c5.symm, rfl, fun i j hi hj => ?_⟩
        rw [one hi c5]; rfl
  have c6 : py.length = 1 := by
    rcases hc with h | h | h | h | h
    · exact absurd h ho
    · rw [hns] at h; simp at h
    · exact absurd h c4
    · exact absurd h c5
    · exact h
  refine fin (asRow px.length fun k => s.data.e (px.getD k 0) (py.getD 0 0)) ?_ ?_
  · unfold select
    rw [c1', c2', c3', if_neg c4, if_neg c5, if_pos c6]; rfl
  · constructor
    · rintro ⟨h1, -, -⟩
      exact Or.inr h1.symm
    · rintro (h | h)
      · exact absurd h ho
      · exact absurd h c5

/-- **C93**: what the values of a selection are, in terms of the parameters. -/
theorem C93_getitem_values (s t : Sweep A D) (px py : List Nat) (hx : ∀ p ∈ px, p < s.x.length) (hy : ∀ p ∈ py, p < s.y.length)
    (h1 : t.x = gather s.x px) (h2 : t.y = gather s.y py) (h : Picked s t px py) (u v : A) (d : D) :
    Value t u v d ↔ ∃ i ∈ px, ∃ j ∈ py, s.x[i]? = some u ∧ s.y[j]? = some v ∧ s.data.e i j = d := by
  unfold Value
  rw [h1, h2]
  simp only [gather_get hx, gather_get hy]
  constructor
  · rintro ⟨a, b, ha, hb, hd⟩
    rcases hp : px[a]? with _ | i
    · rw [hp] at ha; simp at ha
    rcases hq : py[b]? with _ | j
    · rw [hq] at hb; simp at hb
    rw [hp] at ha
    rw [hq] at hb
    obtain ⟨la, ea⟩ := List.getElem?_eq_some_iff.1 hp
    obtain ⟨lb, eb⟩ := List.getElem?_eq_some_iff.1 hq
    refine ⟨i, List.mem_of_getElem? hp, j, List.mem_of_getElem? hq, ha, hb, ?_⟩
    rw [← hd, h.2 a b la lb, List.getD_eq_getElem?_getD, List.getD_eq_getElem?_getD, hp, hq]
    rfl
  · rintro ⟨i, hi, j, hj, ha, hb, hd⟩
    obtain ⟨a, hp⟩ := List.mem_iff_getElem?.1 hi
    obtain ⟨b, hq⟩ := List.mem_iff_getElem?.1 hj
    obtain ⟨la, -⟩ := List.getElem?_eq_some_iff.1 hp
    obtain ⟨lb, -⟩ := List.getElem?_eq_some_iff.1 hq
    refine ⟨a, b, by rw [hp]; exact ha, by rw [hq]; exact hb, ?_⟩
    rw [h.2 a b la lb, List.getD_eq_getElem?_getD, List.getD_eq_getElem?_getD, hp, hq]
    exact hd

theorem mem_within [LinearOrder A] (limits : Option (A × A)) (v : List A) (i : Nat) :
    i ∈ within limits v ↔ ∃ a, v[i]? = some a ∧ ∀ l, limits = some l → l.1 ≤ a ∧ a ≤ l.2 := by
  rcases limits with _ | ⟨lo, hi⟩
  · simp only [within, List.mem_range, reduceCtorEq, false_imp_iff, implies_true, and_true]
    constructor
    · intro h; exact ⟨v[i], List.getElem?_eq_getElem h⟩
    · rintro ⟨a, h⟩; exact (List.getElem?_eq_some_iff.1 h).1
  · simp only [within, mem_trues, Option.some.injEq, forall_eq']
    constructor
    · rintro ⟨j, rfl, hj⟩
      rw [Nat.zero_add]
      rw [List.getElem?_map] at hj
      rcases hv : v[j]? with _ | a
      · rw [hv] at hj; simp at hj
      · rw [hv] at hj
        simp only [Option.map_some, Option.some.injEq, Bool.and_eq_true, decide_eq_true_eq] at hj
        exact ⟨a, rfl, hj⟩
    · rintro ⟨a, ha, h1, h2⟩
      refine ⟨i, by omega, ?_⟩
      rw [List.getElem?_map, ha]
      simp [h1, h2]

theorem within_sorted [LinearOrder A] (limits : Option (A × A)) (v : List A) : (within limits v).Pairwise (· < ·) := by
  rcases limits with _ | ⟨lo, hi⟩
  · exact List.pairwise_lt_range
  · exact trues_sorted _ _

/-- **C93**: cropping keeps exactly the results whose parameters are within the limits (including the limits). -/
theorem C93_cropped [LinearOrder A] (s : Sweep A D) (x y : Option (A × A)) :
    Shaped (s.cropped x y) ∧
    (∀ u v d, Value (s.cropped x y) u v d ↔ Value s u v d ∧ (∀ l, x = some l → l.1 ≤ u ∧ u ≤ l.2) ∧ ∀ l, y = some l → l.1 ≤ v ∧ v ≤ l.2) ∧
    (s.cropped x y).x.Sublist s.x ∧ (s.cropped x y).y.Sublist s.y := by
  have bound : ∀ (l : Option (A × A)) (v : List A), ∀ p ∈ within l v, p < v.length := by
    intro l v p hp
    obtain ⟨a, ha, -⟩ := (mem_within l v p).1 hp
    exact (List.getElem?_eq_some_iff.1 ha).1
  have hshape : Shaped (s.cropped x y) := ⟨(gather_length (bound x s.x)).symm, (gather_length (bound y s.y)).symm⟩
  refine ⟨hshape, ?_, ?_⟩
  · intro u v d
    rw [C93_getitem_values s (s.cropped x y) (within x s.x) (within y s.y) (bound _ _) (bound _ _) rfl rfl
      ⟨hshape, fun _ _ _ _ => rfl⟩]
    simp only [mem_within]
    unfold Value
    constructor
    · rintro ⟨i, ⟨a, e1, e2⟩, j, ⟨b, e3, e4⟩, h1, h2, h3⟩
      rw [e1, Option.some.injEq] at h1
      rw [e3, Option.some.injEq] at h2
      subst h1 h2
      exact ⟨⟨i, j, e1, e3, h3⟩, e2, e4⟩
    · rintro ⟨⟨i, j, h1, h2, h3⟩, h4, h5⟩
      exact ⟨i, ⟨u, h1, h4⟩, j, ⟨v, h2, h5⟩, h1, h2, h3⟩
  · have sub : ∀ (l : Option (A × A)) (v : List A), (gather v (within l v)).Sublist v := by
      intro l v
      have h1 : (within l v).Sublist (List.range v.length) := by
        refine List.sublist_of_subperm_of_pairwise (r := (· < ·)) ?_ (within_sorted l v) List.pairwise_lt_range
        exact List.subperm_of_subset ((within_sorted l v).imp fun h => ne_of_lt h) fun p hp => List.mem_range.2 (bound l v p hp)
      have h2 := h1.filterMap fun p => v[p]?
      have h3 : (List.range v.length).filterMap (fun p => v[p]?) = v := by
        apply List.ext_getElem?
        intro i
        have := gather_get (l := v) (ps := List.range v.length) (fun p hp => List.mem_range.1 hp) i
        unfold gather at this
        rw [this]
        by_cases hi : i < v.length
        · rw [List.getElem?_range hi]; rfl
        · rw [List.getElem?_eq_none (by simp; omega), List.getElem?_eq_none (by omega)]; rfl
      rw [h3] at h2
      exact h2
    exact ⟨sub _ _, sub _ _⟩

/-! ## Mirror images -/

theorem mirror_get [Neg A] (v : List A) (k : Nat) :
    (mirror v)[k]? = if k < v.length then (v[mirrorPlace v.length k]?).map (- ·) else v[mirrorPlace v.length k]? := by
  unfold mirror mirrorPlace
  by_cases hk : k < v.length
  · rw [if_pos hk, if_pos hk, List.getElem?_append_left (by simpa using hk), List.getElem?_map, List.getElem?_reverse hk]
  · rw [if_neg hk, if_neg hk, List.getElem?_append_right (by simpa using hk), List.getElem?_drop]
    congr 1
    simp; omega

theorem mirror_length [Neg A] (v : List A) : (mirror v).length = v.length + (v.length - 1) := by simp [mirror]

/-- Where the values of a mirrored axis come from: from the opposite place, or from the same place unless it is the first
one. -/
theorem mirror_iff [Neg A] (v : List A) (u : A) (q : Nat → Prop) :
    (∃ k, (mirror v)[k]? = some u ∧ q (mirrorPlace v.length k)) ↔
      (∃ i a, v[i]? = some a ∧ u = -a ∧ q i) ∨ ∃ i, 1 ≤ i ∧ v[i]? = some u ∧ q i := by
  constructor
  · rintro ⟨k, hk, hq⟩
    rw [mirror_get] at hk
    by_cases h : k < v.length
    · rw [if_pos h] at hk
      rcases hv : v[mirrorPlace v.length k]? with _ | a
      · rw [hv] at hk; simp at hk
      · rw [hv, Option.map_some, Option.some.injEq] at hk
        exact Or.inl ⟨_, a, hv, hk.symm, hq⟩
    · rw [if_neg h] at hk
      refine Or.inr ⟨_, ?_, hk, hq⟩
      unfold mirrorPlace
      rw [if_neg h]; omega
  · rintro (⟨i, a, h1, h2, h3⟩ | ⟨i, h1, h2, h3⟩)
    · have hi := (List.getElem?_eq_some_iff.1 h1).1
      have hp : mirrorPlace v.length (v.length - 1 - i) = i := by
        unfold mirrorPlace
        rw [if_pos (by omega)]; omega
      refine ⟨v.length - 1 - i, ?_, by rw [hp]; exact h3⟩
      rw [mirror_get, if_pos (by omega), hp, h1, h2]; rfl
    · have hi := (List.getElem?_eq_some_iff.1 h2).1
      have hp : mirrorPlace v.length (v.length + i - 1) = i := by
        unfold mirrorPlace
        rw [if_neg (by omega)]; omega
      refine ⟨v.length + i - 1, ?_, by rw [hp]; exact h3⟩
      rw [mirror_get, if_neg (by omega), hp, h2]

/-- **C93**: the mirror image around the x axis, if it starts at zero: the results are those of the sweep, and the same for
the opposite parameters. -/
theorem C93_mirrored_partial [AddCommGroup A] (s t : Sweep A D) (hs : Shaped s) :
    (s.mirrored (some .x) = some t → Shaped t ∧ (s.x[0]? = some 0 → ∀ u v d, Value t u v d ↔ Value s u v d ∨ Value s (-u) v d)) ∧
    (s.mirrored (some .y) = some t → Shaped t ∧ (s.y[0]? = some 0 → ∀ u v d, Value t u v d ↔ Value s u v d ∨ Value s u (-v) d)) := by
  have key : ∀ (l : List A) (u : A) (q : Nat → Prop), l[0]? = some 0 → ((∃ k, (mirror l)[k]? = some u ∧ q (mirrorPlace l.length k)) ↔
      (∃ i, l[i]? = some u ∧ q i) ∨ ∃ i, l[i]? = some (-u) ∧ q i) := by
    intro l u q h0
    rw [mirror_iff]
    constructor
    · rintro (⟨i, a, h1, h2, h3⟩ | ⟨i, h1, h2, h3⟩)
      · exact Or.inr ⟨i, by rw [h2, neg_neg]; exact h1, h3⟩
      · exact Or.inl ⟨i, h2, h3⟩
    · rintro (⟨i, h1, h2⟩ | ⟨i, h1, h2⟩)
      · rcases i with _ | i
        · rw [h0, Option.some.injEq] at h1
          exact Or.inl ⟨0, 0, h0, by rw [← h1, neg_zero], h2⟩
        · exact Or.inr ⟨i + 1, by omega, h1, h2⟩
      · exact Or.inl ⟨i, -u, h1, by rw [neg_neg], h2⟩
  constructor
  · intro h
    simp only [Sweep.mirrored, Option.some.injEq] at h
    subst h
    refine ⟨⟨by rw [mirror_length, ← hs.1], hs.2⟩, fun h0 u v d => ?_⟩
    have := key s.x u (fun i => ∃ j, s.y[j]? = some v ∧ s.data.e i j = d) h0
    unfold Value
    simp only [hs.1, exists_and_left] at this ⊢
    exact this
  · intro h
    simp only [Sweep.mirrored, Option.some.injEq] at h
    subst h
    refine ⟨⟨hs.1, by rw [mirror_length, ← hs.2]⟩, fun h0 u v d => ?_⟩
    have := key s.y v (fun j => ∃ i, s.x[i]? = some u ∧ s.data.e i j = d) h0
    unfold Value
    simp only [hs.2] at this ⊢
    constructor
    · rintro ⟨i, j, h1, h2, h3⟩
      rcases this.1 ⟨j, h2, i, h1, h3⟩ with ⟨j, h2, i, h1, h3⟩ | ⟨j, h2, i, h1, h3⟩
      · exact Or.inl ⟨i, j, h1, h2, h3⟩
      · exact Or.inr ⟨i, j, h1, h2, h3⟩
    · intro h
      obtain ⟨j, h2, i, h1, h3⟩ := this.2 (h.imp (fun ⟨i, j, h1, h2, h3⟩ => ⟨j, h2, i, h1, h3⟩) fun ⟨i, j, h1, h2, h3⟩ => ⟨j, h2, i, h1, h3⟩)
      exact ⟨i, j, h1, h2, h3⟩

/-! ## Files -/

theorem zip_flatMap {α β γ : Type} (l : List α) (f : α → List β) (g : α → List γ) (h : ∀ a ∈ l, (f a).length = (g a).length) :
    (l.flatMap f).zip (l.flatMap g) = l.flatMap fun a => (f a).zip (g a) := by
  induction l with
  | nil => rfl
  | cons a l ih =>
    simp only [List.flatMap_cons]
    rw [List.zip_append (h a List.mem_cons_self), ih fun b hb => h b (List.mem_cons_of_mem _ hb)]

/-- **C93**: the file has one line for each pair of parameters, with the result for them. -/
theorem C93_file (s : Sweep A D) (hs : Shaped s) :
    s.rowsOfFile = s.x.zipIdx.flatMap fun u => s.y.zipIdx.map fun v => (u.1, v.1, s.data.e u.2 v.2) := by
  unfold Sweep.rowsOfFile
  rw [hs.1, hs.2]
  have e1 : (s.x.flatMap fun u => List.replicate s.y.length u) = s.x.zipIdx.flatMap fun u => List.replicate s.y.length u.1 := by
    conv_lhs => rw [← List.zipIdx_map_fst 0 s.x]
    rw [List.flatMap_map]
  have e2 : (List.replicate s.x.length s.y).flatten = s.x.zipIdx.flatMap fun _ => s.y := by
    rw [List.flatMap_def, List.map_const']
    simp
  have e3 : ((List.range s.x.length).flatMap fun i => (List.range s.y.length).map fun j => s.data.e i j)
      = s.x.zipIdx.flatMap fun u => (List.range s.y.length).map fun j => s.data.e u.2 j := by
    have : List.range s.x.length = s.x.zipIdx.map (·.2) := by
      rw [List.zipIdx_map_snd, List.range_eq_range']
    rw [this, List.flatMap_map]
  rw [e1, e2, e3, zip_flatMap _ _ _ (by simp), zip_flatMap _ _ _ (by simp)]
  congr 1
  funext u
  apply List.ext_getElem
  · simp
  · intro k h1 h2
    simp

/-! ## The nearest line -/

theorem nearest_spec [AddCommGroup A] [LinearOrder A] (v : List A) (a : A) (hne : v ≠ []) :
    ∃ i u, nearest v a = .ok i ∧ v[i]? = some u ∧ ∀ w ∈ v, |u - a| ≤ |w - a| := by
  rcases v with _ | ⟨b, bs⟩
  · exact absurd rfl hne
  have key : ∀ (l : List A) (n : Nat) (m : A × Nat) (pre : List A), pre.length = n → (∃ u, (pre ++ l)[m.2]? = some u ∧ m.1 = |u - a|) →
      (∀ w ∈ pre, m.1 ≤ |w - a|) →
      let r := (l.zipIdx n).foldl (fun (m : A × Nat) p => if |p.1 - a| < m.1 then (|p.1 - a|, p.2) else m) m
      (∃ u, (pre ++ l)[r.2]? = some u ∧ r.1 = |u - a|) ∧ ∀ w ∈ pre ++ l, r.1 ≤ |w - a| := by
    intro l
    induction l with
    | nil =>
      intro n m pre hn h1 h2
      exact ⟨h1, by simpa using h2⟩
    | cons c l ih =>
      intro n m pre hn h1 h2
      simp only [List.zipIdx_cons, List.foldl_cons]
      have happ : pre ++ c :: l = (pre ++ [c]) ++ l := by simp
      rw [happ]
      rw [happ] at h1
      by_cases hc : |c - a| < m.1
      · rw [if_pos hc]
        refine ih (n + 1) (|c - a|, n) (pre ++ [c]) (by simp [hn]) ⟨c, ?_, rfl⟩ ?_
        · subst hn; simp
        · intro w hw
          rw [List.mem_append, List.mem_singleton] at hw
          rcases hw with hw | rfl
          · exact le_trans hc.le (h2 w hw)
          · exact le_rfl
      · rw [if_neg hc]
        refine ih (n + 1) m (pre ++ [c]) (by simp [hn]) h1 ?_
        intro w hw
        rw [List.mem_append, List.mem_singleton] at hw
        rcases hw with hw | rfl
        · exact h2 w hw
        · exact not_lt.1 hc
  obtain ⟨⟨u, h1, h2⟩, h3⟩ := key bs 1 (|b - a|, 0) [b] rfl ⟨b, rfl, rfl⟩ (by simp)
  refine ⟨_, u, rfl, h1, ?_⟩
  intro w hw
  rw [← h2]
  exact h3 w hw

/-- **C93**: the line shown for a value of `x` is the one at the nearest value of the sweep. -/
theorem C93_nearest [AddCommGroup A] [LinearOrder A] (s : Sweep A D) (hs : Shaped s) (hne : s.x ≠ []) (a : A) :
    ∃ u line, s.sliceX a = .ok (line, u) ∧ u ∈ s.x ∧ (∀ w ∈ s.x, |u - a| ≤ |w - a|) ∧ line.length = s.y.length ∧
      ∀ (j : Nat) v d, s.y[j]? = some v → line[j]? = some d → Value s u v d := by
  obtain ⟨i, u, h1, h2, h3⟩ := nearest_spec s.x a hne
  have hi := (List.getElem?_eq_some_iff.1 h2).1
  refine ⟨u, (List.range s.data.cols).map fun j => s.data.e i j, ?_, List.mem_of_getElem? h2, h3, by simp [hs.2], ?_⟩
  · unfold Sweep.sliceX
    rw [h1]
    simp only [Res.bind_ok, h2]
    rw [if_pos (by rw [hs.1]; exact hi)]
  · intro j v d hv hd
    refine ⟨i, j, h2, hv, ?_⟩
    rw [List.getElem?_map, List.getElem?_range (by rw [hs.2]; exact (List.getElem?_eq_some_iff.1 hv).1)] at hd
    simpa using hd

/-! ## Interpolation -/

section
variable [Field A] [LinearOrder A] [IsStrictOrderedRing A]

/-- `v` is the value at `u` of the lines which connect neighboring points. -/
def OnLine (xs ds : List A) (u v : A) : Prop :=
  (∀ (p q : Nat) (a b da db : A), xs[p]? = some a → xs[q]? = some b → ds[p]? = some da → ds[q]? = some db →
    a ≤ u → u ≤ b → a < b → (∀ c ∈ xs, c ≤ a ∨ b ≤ c) → v = da + (u - a) / (b - a) * (db - da)) ∧
  ∀ (p : Nat) d, xs[p]? = some u → ds[p]? = some d → v = d

omit [Field A] [IsStrictOrderedRing A] in
theorem countP_sorted {l : List (A × A)} (hl : l.Pairwise fun p q => p.1 < q.1) (u : A) (k : Nat) (p : A × A) (hk : l[k]? = some p) :
    p.1 < u ↔ k < l.countP fun p => decide (p.1 < u) := by
  induction l generalizing k with
  | nil => simp at hk
  | cons a l ih =>
    rw [List.pairwise_cons] at hl
    rw [List.countP_cons]
    rcases k with _ | k
    · simp only [List.getElem?_cons_zero, Option.some.injEq] at hk
      subst hk
      by_cases h : a.1 < u
      · simp [h]
      · simp only [h, false_iff, decide_false, Bool.false_eq_true, if_false, add_zero]
        rw [List.countP_eq_zero.2]
        · omega
        · intro q hq
          have := hl.1 q hq
          simp only [decide_eq_true_eq]
          intro h'
          exact h (this.trans h')
    · simp only [List.getElem?_cons_succ] at hk
      rw [ih hl.2 k hk]
      by_cases h : a.1 < u
      · simp [h]
      · have hz : (l.countP fun p => decide (p.1 < u)) = 0 := by
          rw [List.countP_eq_zero]
          intro q hq
          have := hl.1 q hq
          simp only [decide_eq_true_eq]
          intro h'
          exact h (this.trans h')
        rw [hz]
        simp [h]

theorem interp_spec (xs ds : List A) (hl : ds.length = xs.length) (h2 : 2 ≤ xs.length) (hnd : xs.Nodup) (u : A)
    (hlo : ∃ a ∈ xs, a ≤ u) (hhi : ∃ b ∈ xs, u ≤ b) : ∃ v, interp xs ds u = .ok v ∧ OnLine xs ds u v := by
  set pts := (xs.zip ds).insertionSort fun p q => p.1 ≤ q.1 with hpts
  have hperm : pts.Perm (xs.zip ds) := List.perm_insertionSort _ _
  have hlen : pts.length = xs.length := by rw [hperm.length_eq]; simp [hl]
  have hfst : (pts.map Prod.fst).Perm xs := by
    have := hperm.map Prod.fst
    rwa [List.map_fst_zip (by omega)] at this
  have hle : pts.Pairwise fun p q => p.1 ≤ q.1 := by
    haveI : Std.Total fun p q : A × A => p.1 ≤ q.1 := ⟨fun a b => le_total _ _⟩
    haveI : IsTrans (A × A) fun p q => p.1 ≤ q.1 := ⟨fun a b c => le_trans⟩
    exact List.pairwise_insertionSort _ _
  have hne : pts.Pairwise fun p q => p.1 ≠ q.1 := by
    have := hfst.nodup_iff.2 hnd
    rwa [List.Nodup, List.pairwise_map] at this
  have hlt : pts.Pairwise fun p q => p.1 < q.1 := by
    refine (hle.and hne).imp fun h => lt_of_le_of_ne h.1 h.2
  have hget : ∀ (k l : Nat) (p q : A × A), pts[k]? = some p → pts[l]? = some q → (p.1 < q.1 ↔ k < l) := by
    have h1 : ∀ (k l : Nat) (p q : A × A), pts[k]? = some p → pts[l]? = some q → k < l → p.1 < q.1 := by
      intro k l p q hk hq hkl
      obtain ⟨k1, k2⟩ := List.getElem?_eq_some_iff.1 hk
      obtain ⟨l1, l2⟩ := List.getElem?_eq_some_iff.1 hq
      have := (List.pairwise_iff_getElem.1 hlt) k l k1 l1 hkl
      rwa [k2, l2] at this
    intro k l p q hk hq
    refine ⟨fun h => ?_, h1 k l p q hk hq⟩
    by_contra hc
    rcases Nat.lt_or_eq_of_le (not_lt.1 hc) with hc | hc
    · exact absurd (h1 l k q p hq hk hc) (not_lt.2 h.le)
    · subst hc
      rw [hk, Option.some.injEq] at hq
      subst hq
      exact lt_irrefl _ h
  have hmem : ∀ (p : Nat) a da, xs[p]? = some a → ds[p]? = some da → ∃ k : Nat, pts[k]? = some (a, da) := by
    intro p a da h1 h2
    refine List.mem_iff_getElem?.1 (hperm.mem_iff.2 (List.mem_iff_getElem?.2 ⟨p, ?_⟩))
    rw [List.getElem?_zip_eq_some]
    exact ⟨h1, h2⟩
  have hmem' : ∀ a ∈ xs, ∃ (k : Nat) (p : A × A), pts[k]? = some p ∧ p.1 = a := by
    intro a ha
    obtain ⟨p, hp, e⟩ := List.mem_map.1 (hfst.mem_iff.2 ha)
    obtain ⟨k, hk⟩ := List.mem_iff_getElem?.1 hp
    exact ⟨k, p, hk, e⟩
  have hcount := fun k p hk => countP_sorted hlt u k p hk
  set c := pts.countP fun p => decide (p.1 < u) with hc
  have hcn : c < pts.length := by
    obtain ⟨b, hb, hub⟩ := hhi
    obtain ⟨k, p, hk, e⟩ := hmem' b hb
    have h1 := (List.getElem?_eq_some_iff.1 hk).1
    have h3 := hcount k p hk
    rw [e] at h3
    have : ¬ b < u := not_lt.2 hub
    rw [h3] at this
    omega
  have hhi' : max 1 (min c (pts.length - 1)) = max 1 c := by omega
  set hi := max 1 c with hhidef
  have hhin : hi < pts.length := by omega
  obtain ⟨a, ha⟩ : ∃ a, pts[hi - 1]? = some a := ⟨_, List.getElem?_eq_getElem (by omega)⟩
  obtain ⟨b, hb⟩ : ∃ b, pts[hi]? = some b := ⟨_, List.getElem?_eq_getElem hhin⟩
  have hab : a.1 < b.1 := (hget _ _ _ _ ha hb).2 (by omega)
  have hau : a.1 ≤ u := by
    by_cases h : 1 ≤ c
    · exact ((hcount _ _ ha).2 (by omega)).le
    · obtain ⟨a', ha', hu'⟩ := hlo
      obtain ⟨k, p, hk, e⟩ := hmem' a' ha'
      have : ¬ p.1 < a.1 := by
        rw [hget _ _ _ _ hk ha]; omega
      rw [e] at this
      exact le_trans (not_lt.1 this) hu'
  have hub : u ≤ b.1 := by
    have := hcount _ _ hb
    exact not_lt.1 fun h => by have := this.1 h; omega
  have hval : interp xs ds u = .ok ((b.2 - a.2) / (b.1 - a.1) * (u - a.1) + a.2) := by
    unfold interp
    simp only [← hpts, ← hc]
    rw [if_neg (by omega), hhi']
    simp only [ha, hb]
    rw [if_neg (ne_of_gt hab)]
  have hpos : b.1 - a.1 ≠ 0 := sub_ne_zero.2 (ne_of_gt hab)
  -- the value at a point
  have hnode : ∀ (k : Nat) d, pts[k]? = some (u, d) → (b.2 - a.2) / (b.1 - a.1) * (u - a.1) + a.2 = d := by
    intro k d hk
    have h1 : ¬ u < a.1 := not_lt.2 hau
    have h3 : ¬ b.1 < u := not_lt.2 hub
    have h1' := hget _ _ _ _ hk ha
    have h3' := hget _ _ _ _ hb hk
    simp only at h1' h3'
    rw [h1'] at h1
    rw [h3'] at h3
    have : k = hi - 1 ∨ k = hi := by omega
    rcases this with rfl | rfl
    · rw [ha, Option.some.injEq] at hk
      rw [hk]; simp
    · rw [hb, Option.some.injEq] at hk
      rw [hk] at hpos ⊢
      field_simp
      ring
  refine ⟨_, hval, ?_, ?_⟩
  · intro p q a' b' da db h1 h2' h3 h4 h5 h6 h7 h8
    obtain ⟨k, hk⟩ := hmem p a' da h1 h3
    obtain ⟨l, hl'⟩ := hmem q b' db h2' h4
    have hkl : k < l := (hget _ _ _ _ hk hl').1 h7
    have hl1 : l = k + 1 := by
      by_contra hcon
      obtain ⟨m, hm⟩ : ∃ m, pts[k + 1]? = some m :=
        ⟨_, List.getElem?_eq_getElem (by have := (List.getElem?_eq_some_iff.1 hl').1; omega)⟩
      have e1 := (hget _ _ _ _ hk hm).2 (by omega)
      have e2 := (hget _ _ _ _ hm hl').2 (by omega)
      have hmx : m.1 ∈ xs := hfst.mem_iff.1 (List.mem_map_of_mem (List.mem_of_getElem? hm))
      rcases h8 m.1 hmx with h | h
      · exact absurd e1 (not_lt.2 h)
      · exact absurd e2 (not_lt.2 h)
    subst hl1
    have hne' : b' - a' ≠ 0 := sub_ne_zero.2 (ne_of_gt h7)
    by_cases hka : k = hi - 1
    · have hkb : k + 1 = hi := by omega
      rw [hka, ha, Option.some.injEq] at hk
      rw [hkb, hb, Option.some.injEq] at hl'
      rw [hk, hl']
      simp only
      field_simp
      ring
    · rcases Nat.lt_or_gt_of_ne hka with h | h
      · -- the point is the right end
        have : ¬ a.1 < b' := by
          have := hget _ _ _ _ ha hl'
          simp only at this
          rw [this]; omega
        have hu : u = b' := le_antisymm h6 (le_trans (not_lt.1 this) hau)
        rw [hnode (k + 1) db (by rw [hl', hu]), hu]
        field_simp
        ring
      · have : ¬ a' < b.1 := by
          have := hget _ _ _ _ hk hb
          simp only at this
          rw [this]; omega
        have hu : u = a' := le_antisymm (le_trans hub (not_lt.1 this)) h5
        rw [hnode k da (by rw [hk, hu]), hu]
        simp
  · intro p d h1 h3
    obtain ⟨k, hk⟩ := hmem p u d h1 h3
    exact hnode k d hk

theorem interpAll_spec (xs ds : List A) (us : List A) (P : A → A → Prop) (h : ∀ u ∈ us, ∃ v, interp xs ds u = .ok v ∧ P u v) :
    ∃ vs, interpAll xs ds us = .ok vs ∧ vs.length = us.length ∧ ∀ (i : Nat) u, us[i]? = some u → P u (vs.getD i 0) := by
  induction us with
  | nil => exact ⟨[], rfl, rfl, by simp⟩
  | cons u us ih =>
    obtain ⟨v, h1, h2⟩ := h u (by simp)
    obtain ⟨vs, e1, e2, e3⟩ := ih fun u' hu' => h u' (by simp [hu'])
    refine ⟨v :: vs, ?_, by simp [e2], ?_⟩
    · show (interp xs ds u).bind (fun v => (interpAll xs ds us).bind fun vs => .ok (v :: vs)) = _
      rw [h1, e1]; rfl
    · intro i w hw
      rcases i with _ | i
      · simp only [List.getElem?_cons_zero, Option.some.injEq] at hw
        subst hw
        exact h2
      · simp only [List.getElem?_cons_succ] at hw
        exact e3 i w hw

theorem interpLines_spec (xs us : List A) (lines : List (List A)) (P : List A → A → A → Prop)
    (h : ∀ ds ∈ lines, ∀ u ∈ us, ∃ v, interp xs ds u = .ok v ∧ P ds u v) :
    ∃ vs, interpLines xs us lines = .ok vs ∧ ∀ (j : Nat) ds, lines[j]? = some ds → ∀ (i : Nat) u, us[i]? = some u → P ds u ((vs.getD j []).getD i 0) := by
  induction lines with
  | nil => exact ⟨[], rfl, by simp⟩
  | cons ds lines ih =>
    obtain ⟨v, h1, -, h2⟩ := interpAll_spec xs ds us (P ds) (h ds (by simp))
    obtain ⟨vs, e1, e3⟩ := ih fun u' hu' => h u' (by simp [hu'])
    refine ⟨v :: vs, ?_, ?_⟩
    · show (interpAll xs ds us).bind (fun v => (interpLines xs us lines).bind fun vs => .ok (v :: vs)) = _
      rw [h1, e1]; rfl
    · intro j w hw
      rcases j with _ | j
      · simp only [List.getElem?_cons_zero, Option.some.injEq] at hw
        subst hw
        exact h2
      · simp only [List.getElem?_cons_succ] at hw
        exact e3 j w hw

/-- `size` equally spaced places from the smallest to the largest of `xs`. -/
def Spaced (xs us : List A) (size : Nat) : Prop :=
  us.length = size ∧ ∃ lo ∈ xs, ∃ hi ∈ xs, (∀ a ∈ xs, lo ≤ a ∧ a ≤ hi) ∧ (0 < size → us[0]? = some lo) ∧
    (2 ≤ size → us[size - 1]? = some hi) ∧
    ∃ step, 0 ≤ step ∧ ∀ (k : Nat) a b, us[k]? = some a → us[k + 1]? = some b → b = a + step

theorem newPlaces_spec (xs : List A) (hne : xs ≠ []) (size : Nat) :
    ∃ us, newPlaces id xs size = .ok us ∧ Spaced xs us size ∧ ∀ u ∈ us, (∃ a ∈ xs, a ≤ u) ∧ ∃ b ∈ xs, u ≤ b := by
  obtain ⟨lo, hlo⟩ : ∃ lo, xs.min? = some lo := by
    rcases h : xs.min? with _ | lo
    · rw [List.min?_eq_none_iff] at h; exact absurd h hne
    · exact ⟨lo, rfl⟩
  obtain ⟨hi, hhi⟩ : ∃ hi, xs.max? = some hi := by
    rcases h : xs.max? with _ | hi
    · rw [List.max?_eq_none_iff] at h; exact absurd h hne
    · exact ⟨hi, rfl⟩
  obtain ⟨l1, l2⟩ := List.min?_eq_some_iff.1 hlo
  obtain ⟨m1, m2⟩ := List.max?_eq_some_iff.1 hhi
  have hlh : lo ≤ hi := l2 hi m1
  refine ⟨(List.range size).map fun k => linspace lo hi size k, ?_, ⟨by simp, lo, l1, hi, m1, fun a ha => ⟨l2 a ha, m2 a ha⟩, ?_, ?_, ?_⟩, ?_⟩
  · unfold newPlaces
    rw [hlo, hhi]
    rfl
  · intro h
    simp [h, linspace]
  · intro h
    rw [List.getElem?_map, List.getElem?_range (by omega)]
    have : ((size - 1 : Nat) : A) ≠ 0 := by
      rw [Nat.cast_ne_zero]; omega
    simp only [Option.map_some, linspace, if_neg (show ¬ size ≤ 1 by omega), Option.some.injEq]
    field_simp
    ring
  · refine ⟨(hi - lo) / (size - 1 : Nat), div_nonneg (sub_nonneg.2 hlh) (Nat.cast_nonneg _), ?_⟩
    intro k a b ha hb
    rw [List.getElem?_map] at ha hb
    have hk : k + 1 < size := by
      by_contra hc
      rw [List.getElem?_eq_none (by simp; omega)] at hb
      simp at hb
    rw [List.getElem?_range (by omega)] at ha hb
    simp only [Option.map_some, linspace, if_neg (show ¬ size ≤ 1 by omega), Option.some.injEq] at ha hb
    rw [← ha, ← hb]
    push_cast
    ring
  · intro u hu
    obtain ⟨k, hk, rfl⟩ := List.mem_map.1 hu
    rw [List.mem_range] at hk
    unfold linspace
    by_cases h1 : size ≤ 1
    · rw [if_pos h1]
      exact ⟨⟨lo, l1, le_refl _⟩, hi, m1, hlh⟩
    · rw [if_neg h1]
      have hpos : (0 : A) < (size - 1 : Nat) := by rw [Nat.cast_pos]; omega
      have hkle : (k : A) ≤ (size - 1 : Nat) := by rw [Nat.cast_le]; omega
      have hk0 : (0 : A) ≤ k := Nat.cast_nonneg k
      have hst : 0 ≤ (hi - lo) / ((size - 1 : Nat) : A) := div_nonneg (sub_nonneg.2 hlh) hpos.le
      refine ⟨⟨lo, l1, le_add_of_nonneg_right (mul_nonneg hk0 hst)⟩, hi, m1, ?_⟩
      calc lo + k * ((hi - lo) / (size - 1 : Nat)) ≤ lo + (size - 1 : Nat) * ((hi - lo) / (size - 1 : Nat)) := by
            gcongr
        _ = hi := by field_simp; ring

/-- Column `j` of the data. -/
def column (s : Sweep A A) (j : Nat) : List A := (List.range s.data.rows).map fun i => s.data.e i j

/-- Row `i` of the data. -/
def row (s : Sweep A A) (i : Nat) : List A := (List.range s.data.cols).map fun j => s.data.e i j

theorem interpX_spec (s : Sweep A A) (hs : Shaped s) (size : Nat) (h0 : 0 < size) (hsz : size ≠ s.x.length) (h2 : 2 ≤ s.x.length)
    (hnd : s.x.Nodup) :
    ∃ t, s.interpX id size = .ok t ∧ Shaped t ∧ t.y = s.y ∧ Spaced s.x t.x size ∧
      ∀ (i j : Nat) u, t.x[i]? = some u → j < s.y.length → OnLine s.x (column s j) u (t.data.e i j) := by
  obtain ⟨us, e1, e2, e3⟩ := newPlaces_spec s.x (by rintro h; rw [h] at h2; simp at h2) size
  obtain ⟨vs, v1, v2⟩ := interpLines_spec s.x us ((List.range s.data.cols).map fun j => (List.range s.data.rows).map fun i => s.data.e i j)
    (fun ds u v => OnLine s.x ds u v) (by
      intro ds hds u hu
      obtain ⟨j, -, rfl⟩ := List.mem_map.1 hds
      exact interp_spec s.x _ (by simp [hs.1]) h2 hnd u (e3 u hu).1 (e3 u hu).2)
  refine ⟨⟨us, s.y, ⟨us.length, s.data.cols, fun i j => (vs.getD j []).getD i 0⟩⟩, ?_, ⟨rfl, hs.2⟩, rfl, e2, ?_⟩
  · unfold Sweep.interpX
    rw [if_pos ⟨h0, hsz⟩, e1]
    show (interpLines s.x us _).bind _ = _
    rw [v1]
    rfl
  · intro i j u hu hj
    refine v2 j _ ?_ i u hu
    rw [List.getElem?_map, List.getElem?_range (by rw [hs.2]; exact hj)]
    rfl

theorem interpY_spec (s : Sweep A A) (hs : Shaped s) (size : Nat) (h0 : 0 < size) (hsz : size ≠ s.y.length) (h2 : 2 ≤ s.y.length)
    (hnd : s.y.Nodup) :
    ∃ t, s.interpY id size = .ok t ∧ Shaped t ∧ t.x = s.x ∧ Spaced s.y t.y size ∧
      ∀ (i j : Nat) v, i < s.x.length → t.y[j]? = some v → OnLine s.y (row s i) v (t.data.e i j) := by
  obtain ⟨us, e1, e2, e3⟩ := newPlaces_spec s.y (by rintro h; rw [h] at h2; simp at h2) size
  obtain ⟨vs, v1, v2⟩ := interpLines_spec s.y us ((List.range s.data.rows).map fun i => (List.range s.data.cols).map fun j => s.data.e i j)
    (fun ds u v => OnLine s.y ds u v) (by
      intro ds hds u hu
      obtain ⟨j, -, rfl⟩ := List.mem_map.1 hds
      exact interp_spec s.y _ (by simp [hs.2]) h2 hnd u (e3 u hu).1 (e3 u hu).2)
  refine ⟨⟨s.x, us, ⟨s.data.rows, us.length, fun i j => (vs.getD i []).getD j 0⟩⟩, ?_, ⟨hs.1, rfl⟩, rfl, e2, ?_⟩
  · unfold Sweep.interpY
    rw [if_pos ⟨h0, hsz⟩, e1]
    show (interpLines s.y us _).bind _ = _
    rw [v1]
    rfl
  · intro i j u hi hu
    refine v2 i _ ?_ j u hu
    rw [List.getElem?_map, List.getElem?_range (by rw [hs.1]; exact hi)]
    rfl

/-- **C93**: interpolation.  The places on an axis whose size is given and different are equally spaced between the smallest and
the largest of the old ones; the others are unchanged.  The values are those of the lines which connect neighboring points,
first along `x` (`m` is the intermediate result), then along `y`.  Partial: for axes of numbers which are not
rounded (`C93_integer_witness`). -/
theorem C93_interpolated_partial (s : Sweep A A) (hs : Shaped s) (sizeX sizeY : Nat)
    (hx : sizeX = 0 ∨ sizeX = s.x.length ∨ (2 ≤ s.x.length ∧ s.x.Nodup)) (hy : sizeY = 0 ∨ sizeY = s.y.length ∨ (2 ≤ s.y.length ∧ s.y.Nodup)) :
    ∃ m t, s.interpX id sizeX = .ok m ∧ s.interpolated id sizeX sizeY = .ok t ∧ Shaped m ∧ Shaped t ∧
      m.x = t.x ∧ m.y = s.y ∧
      (sizeX = 0 ∨ sizeX = s.x.length → m = s) ∧ (sizeY = 0 ∨ sizeY = s.y.length → t = m) ∧
      (0 < sizeX → sizeX ≠ s.x.length → Spaced s.x t.x sizeX ∧
        ∀ (i j : Nat) u, t.x[i]? = some u → j < s.y.length → OnLine s.x (column s j) u (m.data.e i j)) ∧
      (0 < sizeY → sizeY ≠ s.y.length → Spaced s.y t.y sizeY ∧
        ∀ (i j : Nat) v, i < t.x.length → t.y[j]? = some v → OnLine s.y (row m i) v (t.data.e i j)) := by
  have hX : ∃ m, s.interpX id sizeX = .ok m ∧ Shaped m ∧ m.y = s.y ∧ (sizeX = 0 ∨ sizeX = s.x.length → m = s) ∧
      (0 < sizeX → sizeX ≠ s.x.length → Spaced s.x m.x sizeX ∧
        ∀ (i j : Nat) u, m.x[i]? = some u → j < s.y.length → OnLine s.x (column s j) u (m.data.e i j)) := by
    by_cases h : 0 < sizeX ∧ sizeX ≠ s.x.length
    · have h' : 2 ≤ s.x.length ∧ s.x.Nodup := by
        rcases hx with hx | hx | hx
        · omega
        · exact absurd hx h.2
        · exact hx
      obtain ⟨m, m1, m2, m3, m4, m5⟩ := interpX_spec s hs sizeX h.1 h.2 h'.1 h'.2
      exact ⟨m, m1, m2, m3, by rintro (e | e) <;> omega, fun _ _ => ⟨m4, m5⟩⟩
    · refine ⟨s, ?_, hs, rfl, fun _ => rfl, fun h1 h2 => absurd ⟨h1, h2⟩ h⟩
      unfold Sweep.interpX
      rw [if_neg h]
  obtain ⟨m, m1, m2, m3, m4, m5⟩ := hX
  have hY : ∃ t, m.interpY id sizeY = .ok t ∧ Shaped t ∧ t.x = m.x ∧ (sizeY = 0 ∨ sizeY = s.y.length → t = m) ∧
      (0 < sizeY → sizeY ≠ s.y.length → Spaced s.y t.y sizeY ∧
        ∀ (i j : Nat) v, i < t.x.length → t.y[j]? = some v → OnLine s.y (row m i) v (t.data.e i j)) := by
    rw [← m3] at hy ⊢
    by_cases h : 0 < sizeY ∧ sizeY ≠ m.y.length
    · have h' : 2 ≤ m.y.length ∧ m.y.Nodup := by
        rcases hy with hy | hy | hy
        · omega
        · exact absurd hy h.2
        · exact hy
      obtain ⟨t, t1, t2, t3, t4, t5⟩ := interpY_spec m m2 sizeY h.1 h.2 h'.1 h'.2
      exact ⟨t, t1, t2, t3, by rintro (e | e) <;> omega, fun _ _ => ⟨t4, by rw [t3]; exact t5⟩⟩
    · refine ⟨m, ?_, m2, rfl, fun _ => rfl, fun h1 h2 => absurd ⟨h1, h2⟩ h⟩
      unfold Sweep.interpY
      rw [if_neg h]
  obtain ⟨t, t1, t2, t3, t4, t5⟩ := hY
  refine ⟨m, t, m1, ?_, m2, t2, t3.symm, m3, m4, t4, ?_, t5⟩
  · show (s.interpX id sizeX).bind (fun t => t.interpY id sizeY) = _
    rw [m1]
    exact t1
  · rw [t3]; exact m5

end

/-! ## Witnesses and examples -/

namespace Demo

/-- A sweep with 2 × 3 values. -/
def s : Sweep Int Int := ⟨[1, 2], [10, 20, 30], ⟨2, 3, fun i j => 100 * i + j⟩⟩

/-- A sweep which starts at zero. -/
def z : Sweep Int Int := ⟨[0, 2], [10, 20, 30], ⟨2, 3, fun i j => 100 * i + j⟩⟩

/-- Numbers for the interpolation. -/
def q : Sweep Rat Rat := ⟨[2, 0, 1], [0, 1], ⟨3, 2, fun i j => 10 * i + j⟩⟩

/-- Integers on the x axis. -/
def n : Sweep Rat Rat := ⟨[0, 1], [0], ⟨2, 1, fun i _ => i⟩⟩

/-- A slice of everything. -/
def all : Item := .arr (.slice none none 1)

end Demo

/-- **C93, witness**: `sweep[:, 1]` has two values of `x` and one of `y`, but data with one row and two columns. -/
theorem C93_column_witness : ∃ t, Demo.s.get Demo.all (.int 1) = .ok t ∧ t.x = [1, 2] ∧ t.y = [20] ∧ t.data.rows = 1 ∧ t.data.cols = 2 ∧
    ¬ Shaped t := by
  refine ⟨_, rfl, by decide +kernel, by decide +kernel, by decide +kernel, by decide +kernel, ?_⟩
  rintro ⟨h, -⟩
  revert h
  decide +kernel

/-- **C93, witness**: two masks are taken in pairs: `sweep[[True, True], [True, False, True]]` has two values on each axis but
data with one row. -/
theorem C93_masks_witness : ∃ t, Demo.s.get (.arr (.mask [true, true])) (.arr (.mask [true, false, true])) = .ok t ∧
    t.x = [1, 2] ∧ t.y = [10, 30] ∧ t.data.rows = 1 ∧ t.data.cols = 2 := by
  refine ⟨_, rfl, by decide +kernel, by decide +kernel, by decide +kernel, by decide +kernel⟩

/-- **C93, witness**: if the axis does not start at zero, mirroring loses the values at its first place. -/
theorem C93_mirrored_witness : ∃ t, Demo.s.mirrored (some .x) = some t ∧ t.x = [-2, -1, 2] ∧ Value Demo.s 1 10 0 ∧ ∀ v d, ¬ Value t 1 v d := by
  refine ⟨_, rfl, by decide +kernel, ⟨0, 0, rfl, rfl, rfl⟩, ?_⟩
  rintro v d ⟨i, j, hi, -, -⟩
  have hm : (1 : Int) ∈ mirror Demo.s.x := List.mem_of_getElem? hi
  revert hm
  decide +kernel

/-- **C93, witness**: for any other name of an axis the result is `None`, no exception. -/
theorem C93_axis_witness : Demo.s.mirrored none = none := rfl

/-- **C93, witness**: new places on an axis of integers are rounded towards zero, so they coincide. -/
theorem C93_integer_witness : ∃ t, Demo.n.interpolated (fun a => (a.floor : Rat)) 4 0 = .ok t ∧ t.x = [0, 0, 0, 1] ∧ ¬ Spaced Demo.n.x t.x 4 := by
  have key : (Demo.n.interpolated (fun a => (a.floor : Rat)) 4 0).bind (fun t => .ok t.x) = .ok [0, 0, 0, 1] := by decide +kernel
  rcases h : Demo.n.interpolated (fun a => (a.floor : Rat)) 4 0 with t | _ | _
  rotate_left
  · rw [h] at key; simp [Res.bind] at key
  · rw [h] at key; simp [Res.bind] at key
  rw [h] at key
  simp only [Res.bind, Res.ok.injEq] at key
  refine ⟨t, h, key, ?_⟩
  rw [key]
  rintro ⟨-, lo, -, hi, -, -, -, -, step, -, h⟩
  have h1 := h 0 0 0 (by decide +kernel) (by decide +kernel)
  have h2 := h 2 0 1 (by decide +kernel) (by decide +kernel)
  linarith

/-- The hypotheses of `C93_getitem_partial` are met, with independent indices. -/
example : Shaped Demo.s ∧ Demo.all.places Demo.s.x.length = .ok [0, 1] ∧
    (Item.arr (.mask [true, false, true])).places Demo.s.y.length = .ok [0, 2] ∧ Outer Demo.all (.arr (.mask [true, false, true])) :=
  ⟨⟨rfl, rfl⟩, by decide +kernel, by decide +kernel, Or.inr ⟨rfl, rfl⟩⟩

/-- Cropping keeps a part. -/
example : (Demo.s.cropped (some (2, 5)) none).x = [2] ∧ Value (Demo.s.cropped (some (2, 5)) none) 2 30 102 :=
  ⟨by decide +kernel, 0, 2, by decide +kernel, by decide +kernel, by decide +kernel⟩

/-- The hypotheses of `C93_mirrored_partial` are met. -/
example : Shaped Demo.z ∧ Demo.z.x[0]? = some 0 ∧ ∃ t, Demo.z.mirrored (some .x) = some t ∧ t.x = [-2, 0, 2] :=
  ⟨⟨rfl, rfl⟩, rfl, _, rfl, by decide +kernel⟩

/-- The hypotheses of `C93_file` and `C93_nearest` are met. -/
example : Shaped Demo.s ∧ Demo.s.x ≠ [] ∧ Demo.s.rowsOfFile = [(1, 10, 0), (1, 20, 1), (1, 30, 2), (2, 10, 100), (2, 20, 101), (2, 30, 102)] :=
  ⟨⟨rfl, rfl⟩, by decide +kernel, by decide +kernel⟩

/-- The hypotheses of `C93_interpolated_partial` are met, for places in any order. -/
example : Shaped Demo.q ∧ 2 ≤ Demo.q.x.length ∧ Demo.q.x.Nodup ∧ 5 ≠ Demo.q.x.length ∧ interp Demo.q.x (column Demo.q 0) (1 / 2) = .ok 15 :=
  ⟨⟨rfl, rfl⟩, by decide +kernel, by decide +kernel, by decide +kernel, by decide +kernel⟩

end Verif.Binding.SweepResult
