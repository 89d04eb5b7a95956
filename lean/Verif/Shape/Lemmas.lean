import Verif.Shape.Spec
import Mathlib.Tactic.Linarith
import Mathlib.Tactic.FieldSimp
import Mathlib.Tactic.Ring
import Mathlib.Data.List.Rotate

/-!
# Lemmas for polygons
-/

namespace Verif.Shape

set_option linter.unusedSectionVars false

variable {F : Type} [Field F] [LinearOrder F] [IsStrictOrderedRing F]

/-- Consecutive pairs of a walk. -/
def path {α : Type} : α → List α → List (α × α)
  | _, [] => []
  | p, q :: rest => (p, q) :: path q rest

/-- The end of a walk. -/
def lastOr {α : Type} : α → List α → α
  | p, [] => p
  | _, q :: rest => lastOr q rest

theorem lastOr_append {α : Type} (p : α) (l : List α) (b : α) : lastOr p (l ++ [b]) = b := by
  induction l generalizing p with
  | nil => rfl
  | cons q l ih => exact ih q

theorem getLast_cons {α : Type} (p : α) (l : List α) : (p :: l).getLast? = some (lastOr p l) := by
  induction l generalizing p with
  | nil => rfl
  | cons q l ih =>
    rw [List.getLast?_cons_cons, ih]
    rfl

theorem path_append {α : Type} (p : α) (l : List α) (b : α) :
    path p (l ++ [b]) = path p l ++ [(lastOr p l, b)] := by
  induction l generalizing p with
  | nil => rfl
  | cons q l ih => simp only [List.cons_append, path, ih, lastOr]

theorem zip_path {α : Type} (p : α) (l : List α) : (p :: l).zip l = path p l := by
  induction l generalizing p with
  | nil => rfl
  | cons q l ih => simp only [List.zip_cons_cons, path]; rw [← ih]

theorem sides_cons (a : Pt F) (t : List (Pt F)) : sides (a :: t) = path a (t ++ [a]) := by
  unfold sides
  have h1 : (a :: t).rotate 1 = t ++ [a] := by simp
  rw [h1, ← zip_path]
  have : a :: (t ++ [a]) = (a :: t) ++ [a] := rfl
  rw [this]
  have hl : (a :: t).length = (t ++ [a]).length := by simp
  have := List.zip_append (l₁ := a :: t) (r₁ := [a]) (l₂ := t ++ [a]) (r₂ := []) hl
  simp only [List.append_nil, List.zip_nil_right] at this
  exact this.symm

/-- The sides of a rotated list are the same up to their order. -/
theorem sides_rotate_one (vs : List (Pt F)) : (sides (vs.rotate 1)).Perm (sides vs) := by
  cases vs with
  | nil => simp
  | cons a t =>
    cases t with
    | nil => simp
    | cons b u =>
      have h1 : (a :: b :: u).rotate 1 = b :: (u ++ [a]) := by simp
      rw [h1, sides_cons, sides_cons]
      rw [path_append]
      rw [lastOr_append]
      have h2 : path a (b :: u ++ [a]) = (a, b) :: path b (u ++ [a]) := rfl
      rw [h2]
      exact (List.perm_append_singleton _ _)

theorem sides_rotate (vs : List (Pt F)) (n : Nat) : (sides (vs.rotate n)).Perm (sides vs) := by
  induction n with
  | zero => simp
  | succ n ih =>
    have : vs.rotate (n + 1) = (vs.rotate n).rotate 1 := by rw [List.rotate_rotate]
    rw [this]
    exact (sides_rotate_one _).trans ih

theorem path_reverse {α : Type} (w : List α) :
    w.reverse.zip w.reverse.tail = ((w.zip w.tail).map Prod.swap).reverse := by
  induction w with
  | nil => rfl
  | cons p l ih =>
    cases l with
    | nil => rfl
    | cons q l =>
      have e1 : (p :: q :: l).zip (p :: q :: l).tail = (p, q) :: (q :: l).zip (q :: l).tail := rfl
      rw [e1, List.map_cons, List.reverse_cons (a := (p, q).swap), ← ih]
      have hne : (q :: l).reverse ≠ [] := by simp
      obtain ⟨r, m, hr⟩ := List.exists_cons_of_ne_nil hne
      have hlast : lastOr r m = q := by
        have h := getLast_cons r m
        rw [← hr, List.reverse_cons] at h
        simpa using h.symm
      have e2 : (p :: q :: l).reverse = r :: (m ++ [p]) := by
        rw [List.reverse_cons, hr]
        rfl
      rw [e2, hr]
      simp only [List.tail_cons]
      rw [zip_path, zip_path, path_append, hlast]
      rfl

/-- The sides of the reversed list are the swapped sides, up to their order. -/
theorem sides_reverse (vs : List (Pt F)) :
    (sides vs.reverse).Perm ((sides vs).map Prod.swap) := by
  cases vs with
  | nil => exact List.Perm.nil
  | cons a t =>
    have h1 : (a :: t).reverse = (a :: t.reverse).rotate 1 := by simp
    rw [h1]
    refine (sides_rotate_one _).trans ?_
    rw [sides_cons, sides_cons, ← zip_path, ← zip_path]
    have h2 := path_reverse (a :: (t ++ [a]))
    have h3 : (a :: (t ++ [a])).reverse = a :: (t.reverse ++ [a]) := by simp
    rw [h3] at h2
    simp only [List.tail_cons] at h2
    rw [h2]
    exact List.reverse_perm _

/-- The test of the code for a side that is not horizontal. -/
theorem flips_iff (p1 p2 c : Pt F) (hne : p1.y ≠ p2.y) :
    flips p1 p2 c = true ↔ Crosses c (p2, p1) := by
  have hd : p2.y - p1.y ≠ 0 := sub_ne_zero.mpr (Ne.symm hne)
  have hd' : p1.y - p2.y ≠ 0 := sub_ne_zero.mpr hne
  unfold flips Crosses
  simp only [Bool.and_eq_true, bne_iff_ne, ne_eq, decide_eq_decide, decide_eq_true_eq, gt_iff_lt]
  have key : ∀ t : F, p2.y + t * (p1.y - p2.y) = c.y →
      p2.x + t * (p1.x - p2.x) = (p2.x - p1.x) / (p2.y - p1.y) * (c.y - p1.y) + p1.x := by
    intro t ht
    rw [← ht]
    field_simp
    ring
  constructor
  · rintro ⟨hy, hx⟩
    refine ⟨(c.y - p2.y) / (p1.y - p2.y), ?_, ?_, ?_, ?_, Ne.symm hne, ?_⟩
    · rcases lt_or_gt_of_ne hne with h | h
      · have : c.y ≤ p2.y := by
          by_contra h'
          push Not at h'
          exact hy ⟨fun h1 => absurd (h1.trans (h.trans h')) (lt_irrefl _), fun h1 => absurd (h1.trans h') (lt_irrefl _)⟩
        rw [div_nonneg_iff]
        right
        constructor <;> linarith
      · have : p2.y ≤ c.y := by
          by_contra h'
          push Not at h'
          exact hy ⟨fun _ => h', fun _ => h'.trans h⟩
        apply div_nonneg <;> linarith
    · rcases lt_or_gt_of_ne hne with h | h
      · have : p1.y ≤ c.y := by
          by_contra h'
          push Not at h'
          exact hy ⟨fun _ => h'.trans h, fun _ => h'⟩
        rw [div_le_one_of_neg (by linarith)]
        linarith
      · have : c.y ≤ p1.y := by
          by_contra h'
          push Not at h'
          exact hy ⟨fun h1 => absurd (h1.trans h') (lt_irrefl _), fun h1 => absurd (h1.trans (h.trans h')) (lt_irrefl _)⟩
        rw [div_le_one (by linarith)]
        linarith
    · field_simp
      ring
    · rw [key _ (by field_simp; ring)]
      exact hx
    · intro h
      rcases lt_or_gt_of_ne hne with h' | h'
      · have hm : max p2.y p1.y = p2.y := max_eq_left h'.le
        rw [hm] at h
        exact hy ⟨fun h1 => absurd (h ▸ h1) (by simp only [not_lt]; exact h'.le), fun h1 => absurd (h ▸ h1) (lt_irrefl _)⟩
      · have hm : max p2.y p1.y = p1.y := max_eq_right h'.le
        rw [hm] at h
        exact hy ⟨fun h1 => absurd (h ▸ h1) (lt_irrefl _), fun h1 => absurd (h ▸ h1) (by simp only [not_lt]; exact h'.le)⟩
  · rintro ⟨t, ht0, ht1, hy, hx, -, hm⟩
    refine ⟨?_, by rw [← key t hy]; exact hx⟩
    intro hiff
    rcases lt_or_gt_of_ne hne with h | h
    · have hm' : max p2.y p1.y = p2.y := max_eq_left h.le
      rw [hm'] at hm
      have h1 : c.y ≤ p2.y := by
        rw [← hy]
        have : t * (p1.y - p2.y) ≤ 0 := mul_nonpos_of_nonneg_of_nonpos ht0 (by linarith)
        linarith
      have h2 : p1.y ≤ c.y := by
        rw [← hy]
        have : (1 - t) * (p2.y - p1.y) ≥ 0 := mul_nonneg (by linarith) (by linarith)
        nlinarith
      have h3 : c.y < p2.y := lt_of_le_of_ne h1 hm
      exact absurd (hiff.mpr h3) (not_lt.mpr h2)
    · have hm' : max p2.y p1.y = p1.y := max_eq_right h.le
      rw [hm'] at hm
      have h1 : p2.y ≤ c.y := by
        rw [← hy]
        have : t * (p1.y - p2.y) ≥ 0 := mul_nonneg ht0 (by linarith)
        linarith
      have h2 : c.y ≤ p1.y := by
        rw [← hy]
        have : (1 - t) * (p1.y - p2.y) ≥ 0 := mul_nonneg (by linarith) (by linarith)
        nlinarith
      have h3 : c.y < p1.y := lt_of_le_of_ne h2 hm
      exact absurd (hiff.mp h3) (not_lt.mpr h1)

theorem crosses_swap (c : Pt F) (s : Pt F × Pt F) : Crosses c s.swap ↔ Crosses c s := by
  have one : ∀ s : Pt F × Pt F, Crosses c s → Crosses c s.swap := by
    rintro ⟨p, q⟩ ⟨t, h0, h1, hy, hx, hn, hm⟩
    refine ⟨1 - t, by linarith, by linarith, ?_, ?_, Ne.symm hn, ?_⟩
    · simp only [Prod.swap]
      rw [← hy]
      ring
    · simp only [Prod.swap]
      have : q.x + (1 - t) * (p.x - q.x) = p.x + t * (q.x - p.x) := by ring
      rw [this]
      exact hx
    · simp only [Prod.swap]
      rw [max_comm]
      exact hm
  constructor
  · intro h
    have := one _ h
    simpa using this
  · exact one s

theorem not_crosses_horizontal (c : Pt F) (s : Pt F × Pt F) (h : s.1.y = s.2.y) : ¬ Crosses c s := by
  rintro ⟨t, _, _, _, _, hn, _⟩
  exact hn h

/-- The test of the code for one side, including the skipped sides. -/
def tests (eps tiny : F) (c : Pt F) (s : Pt F × Pt F) : Bool :=
  !approxEqual eps tiny s.2.y s.1.y && flips s.2 s.1 c

theorem withinLoop_spec (eps tiny : F) (c : Pt F) (vs : List (Pt F)) (p : Pt F) (w : Bool) :
    withinLoop eps tiny c p vs w = true ↔
      (w = false ↔ Odd ((path p vs).countP (tests eps tiny c))) := by
  induction vs generalizing p w with
  | nil => cases w <;> simp [withinLoop, path]
  | cons q rest ih =>
    simp only [withinLoop, path]
    rw [ih q _, List.countP_cons]
    have ht : tests eps tiny c (p, q) = (!approxEqual eps tiny q.y p.y && flips q p c) := rfl
    rw [ht]
    by_cases ha : approxEqual eps tiny q.y p.y = true
    · simp [ha]
    · by_cases hf : flips q p c = true
      · simp only [ha, hf, if_true, Bool.not_false, Bool.and_self, Bool.false_eq_true, if_false]
        rw [Nat.odd_add_one]
        by_cases ho : Odd (List.countP (tests eps tiny c) (path q rest)) <;>
          cases w <;> simp [ho]
      · simp [ha, hf]

theorem approx_self (eps tiny : F) (h : 0 ≤ eps) (a : F) : approxEqual eps tiny a a = true := by
  unfold approxEqual
  simp only [sub_self, abs_zero, Bool.or_eq_true, decide_eq_true_eq]
  left
  positivity

theorem approx_comm (eps tiny a b : F) : approxEqual eps tiny a b = approxEqual eps tiny b a := by
  unfold approxEqual
  rw [abs_sub_comm, add_comm]

theorem path_last (a : Pt F) (t : List (Pt F)) :
    (path (lastOr a t) (a :: t)).Perm (sides (a :: t)) := by
  rw [sides_cons, path_append]
  simp only [path]
  exact (List.perm_append_singleton _ _).symm

/-- The result is the parity of the number of sides that pass the test. -/
theorem within_parity (eps tiny : F) (c : Pt F) (vs : List (Pt F)) :
    within eps tiny vs c = true ↔ Odd ((sides vs).countP (tests eps tiny c)) := by
  cases vs with
  | nil => simp [within, sides]
  | cons a t =>
    unfold within
    rw [getLast_cons]
    simp only
    rw [withinLoop_spec, (path_last a t).countP_eq]
    simp

theorem flips_comm (p q c : Pt F) : flips p q c = flips q p c := by
  by_cases h : p.y = q.y
  · simp [flips, h]
  · rw [Bool.eq_iff_iff, flips_iff p q c h, flips_iff q p c (Ne.symm h)]
    exact crosses_swap c (p, q)

theorem tests_swap (eps tiny : F) (c : Pt F) (s : Pt F × Pt F) :
    tests eps tiny c s.swap = tests eps tiny c s := by
  unfold tests
  rw [approx_comm, flips_comm]
  rfl

open Classical in
theorem tests_eq (eps tiny : F) (h : 0 ≤ eps) (c : Pt F) (s : Pt F × Pt F)
    (hr : approxEqual eps tiny s.1.y s.2.y = true → s.1.y = s.2.y) :
    tests eps tiny c s = decide (Crosses c s) := by
  unfold tests
  rw [approx_comm]
  by_cases ha : approxEqual eps tiny s.1.y s.2.y = true
  · have := not_crosses_horizontal c s (hr ha)
    simp [ha, this]
  · have hne : s.1.y ≠ s.2.y := by
      intro he
      rw [he] at ha
      exact ha (approx_self eps tiny h _)
    have := flips_iff s.2 s.1 c (Ne.symm hne)
    rw [Bool.eq_iff_iff]
    simp only [ha, Bool.not_false, Bool.true_and, decide_eq_true_eq]
    exact this

/-- A side is crossed upwards by a point right of it or downwards by a point left of it. -/
theorem crosses_turn (c p q : Pt F) :
    Crosses c (p, q) ↔ (p.y ≤ c.y ∧ c.y < q.y ∧ turn p q c < 0) ∨
      (q.y ≤ c.y ∧ c.y < p.y ∧ 0 < turn p q c) := by
  by_cases hpq : p.y = q.y
  · constructor
    · intro h
      exact absurd h (not_crosses_horizontal c (p, q) hpq)
    · rintro (⟨h1, h2, _⟩ | ⟨h1, h2, _⟩)
      · exact absurd (h1.trans_lt h2) (by rw [hpq]; exact lt_irrefl _)
      · exact absurd (h1.trans_lt h2) (by rw [hpq]; exact lt_irrefl _)
  · rw [← flips_iff q p c (Ne.symm hpq), flips_comm]
    unfold flips turn
    simp only [Bool.and_eq_true, bne_iff_ne, ne_eq, decide_eq_decide, decide_eq_true_eq, gt_iff_lt]
    have hd : q.y - p.y ≠ 0 := sub_ne_zero.mpr (Ne.symm hpq)
    have e : (q.x - p.x) / (q.y - p.y) * (c.y - p.y) + p.x < c.x ↔
        (q.x - p.x) * (c.y - p.y) / (q.y - p.y) < c.x - p.x := by
      rw [lt_sub_iff_add_lt, div_mul_eq_mul_div]
    rw [e]
    constructor
    · rintro ⟨hy, hx⟩
      rcases le_or_gt p.y c.y with h1 | h1 <;> rcases le_or_gt q.y c.y with h2 | h2
      · exact absurd ⟨fun h => absurd h (not_lt.mpr h1), fun h => absurd h (not_lt.mpr h2)⟩ hy
      · left
        refine ⟨h1, h2, ?_⟩
        rw [div_lt_iff₀ (by linarith)] at hx
        linarith
      · right
        refine ⟨h2, h1, ?_⟩
        rw [div_lt_iff_of_neg (by linarith)] at hx
        linarith
      · exact absurd ⟨fun _ => h2, fun _ => h1⟩ hy
    · rintro (⟨h1, h2, h3⟩ | ⟨h1, h2, h3⟩)
      · refine ⟨fun h => absurd (h.mpr h2) (not_lt.mpr h1), ?_⟩
        rw [div_lt_iff₀ (by linarith)]
        linarith
      · refine ⟨fun h => absurd (h.mp h2) (not_lt.mpr h1), ?_⟩
        rw [div_lt_iff_of_neg (by linarith)]
        linarith

end Verif.Shape
