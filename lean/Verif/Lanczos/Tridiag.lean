import Verif.Lanczos.Model
import Verif.Numeric.Lemmas
import Mathlib.Data.List.GetD
import Mathlib.Algebra.Order.BigOperators.Group.Finset
import Mathlib.Tactic.LinearCombination
import Mathlib.Tactic.FieldSimp
import Mathlib.Algebra.Module.Equiv.Basic

/-!
# The QR steps are rotations

The symmetric tridiagonal matrix with diagonal `d` and subdiagonal `s` is represented by its quadratic form.
-/

namespace Verif.Lanczos

open Verif.Numeric
open Finset

/-! ## Quadratic forms -/

/-- The squared length of the first `n` components. -/
def sq (n : Nat) (x : Nat → ℝ) : ℝ := ∑ i ∈ range n, x i ^ 2

/-- The quadratic form of the symmetric tridiagonal matrix of size `n`. -/
def form (n : Nat) (d s : Nat → ℝ) (x : Nat → ℝ) : ℝ :=
  ∑ i ∈ range n, d i * x i ^ 2 + 2 * ∑ i ∈ range (n - 1), s i * (x i * x (i + 1))

/-- An array as a function. -/
def ofList (l : List ℝ) (i : Nat) : ℝ := l.getD i 0

theorem ofList_set (l : List ℝ) (i : Nat) (a : ℝ) (h : i < l.length) :
    ofList (l.set i a) = Function.update (ofList l) i a := by
  funext j
  by_cases hj : i = j
  · subst hj; simp [ofList, List.getD_eq_getElem?_getD, h]
  · rw [Function.update_of_ne (Ne.symm hj)]
    simp [ofList, List.getD_eq_getElem?_getD, List.getElem?_set, hj]

theorem rd_ofList (l : List ℝ) (i : Nat) (h : i < l.length) : rd l i = .ok (ofList l i) := by
  rw [rd_ok l i h]
  unfold ofList
  rw [List.getD_eq_getElem _ _ h]

theorem sq_nonneg' (n : Nat) (x : Nat → ℝ) : 0 ≤ sq n x := Finset.sum_nonneg fun i _ => sq_nonneg _

/-- Two forms describe matrices that are the same up to a rotation, and up to a symmetric matrix of norm at most
`δ`. -/
def Sim (n : Nat) (F F' : (Nat → ℝ) → ℝ) (δ : ℝ) : Prop :=
  ∃ P : (Nat → ℝ) ≃ₗ[ℝ] (Nat → ℝ), (∀ x, sq n (P x) = sq n x) ∧ (∀ x i, n ≤ i → P x i = x i) ∧
    ∀ x, |F' x - F (P x)| ≤ δ * sq n x

theorem Sim.refl (n : Nat) (F : (Nat → ℝ) → ℝ) : Sim n F F 0 :=
  ⟨LinearEquiv.refl ℝ _, fun _ => rfl, fun _ _ _ => rfl, fun x => by simp⟩

theorem Sim.trans {n : Nat} {F F' F'' : (Nat → ℝ) → ℝ} {δ δ' : ℝ} (h : Sim n F F' δ) (h' : Sim n F' F'' δ') :
    Sim n F F'' (δ + δ') := by
  obtain ⟨P, p1, p2, p4⟩ := h
  obtain ⟨Q, q1, q2, q4⟩ := h'
  refine ⟨Q.trans P, fun x => ?_, fun x i hi => ?_, fun x => ?_⟩
  · show sq n (P (Q x)) = _
    rw [p1, q1]
  · show P (Q x) i = _
    rw [p2 _ _ hi, q2 _ _ hi]
  · show |F'' x - F (P (Q x))| ≤ _
    have e : F'' x - F (P (Q x)) = (F'' x - F' (Q x)) + (F' (Q x) - F (P (Q x))) := by ring
    rw [e]
    have a := q4 x
    have b := p4 (Q x)
    rw [q1] at b
    calc _ ≤ _ := abs_add_le _ _
      _ ≤ δ' * sq n x + δ * sq n x := add_le_add a b
      _ = _ := by ring

/-- The same matrix up to a perturbation. -/
theorem Sim.perturb {n : Nat} {F F' : (Nat → ℝ) → ℝ} {δ : ℝ} (h : ∀ x, |F' x - F x| ≤ δ * sq n x) : Sim n F F' δ :=
  ⟨LinearEquiv.refl ℝ _, fun _ => rfl, fun _ _ _ => rfl, h⟩

/-! ## Rotations -/

/-- The rotation in the plane of the components `k` and `k + 1`. -/
def rot (k : Nat) (c s : ℝ) (x : Nat → ℝ) : Nat → ℝ := fun i =>
  if i = k then c * x k + s * x (k + 1) else if i = k + 1 then c * x (k + 1) - s * x k else x i

@[simp] theorem rot_k (k : Nat) (c s : ℝ) (x : Nat → ℝ) : rot k c s x k = c * x k + s * x (k + 1) := by simp [rot]
@[simp] theorem rot_k1 (k : Nat) (c s : ℝ) (x : Nat → ℝ) : rot k c s x (k + 1) = c * x (k + 1) - s * x k := by simp [rot]
theorem rot_ne {k : Nat} {c s : ℝ} {x : Nat → ℝ} {i : Nat} (h1 : i ≠ k) (h2 : i ≠ k + 1) : rot k c s x i = x i := by
  simp [rot, h1, h2]

/-- The rotation as a linear map. -/
def rotEquiv (k : Nat) (c s : ℝ) (h : c * c + s * s = 1) : (Nat → ℝ) ≃ₗ[ℝ] (Nat → ℝ) where
  toFun := rot k c s
  invFun := rot k c (-s)
  map_add' x y := by
    funext i
    by_cases h1 : i = k
    · subst h1; simp only [rot_k, Pi.add_apply]; ring
    · by_cases h2 : i = k + 1
      · subst h2; simp only [rot_k1, Pi.add_apply]; ring
      · simp only [Pi.add_apply, rot_ne h1 h2]
  map_smul' a x := by
    funext i
    by_cases h1 : i = k
    · subst h1; simp only [rot_k, Pi.smul_apply, smul_eq_mul, RingHom.id_apply]; ring
    · by_cases h2 : i = k + 1
      · subst h2; simp only [rot_k1, Pi.smul_apply, smul_eq_mul, RingHom.id_apply]; ring
      · simp only [Pi.smul_apply, rot_ne h1 h2, RingHom.id_apply]
  left_inv x := by
    funext i
    by_cases h1 : i = k
    · subst h1; simp only [rot_k, rot_k1]; linear_combination x i * h
    · by_cases h2 : i = k + 1
      · subst h2; simp only [rot_k, rot_k1]; linear_combination x (k + 1) * h
      · simp only [rot_ne h1 h2]
  right_inv x := by
    funext i
    by_cases h1 : i = k
    · subst h1; simp only [rot_k, rot_k1]; linear_combination x i * h
    · by_cases h2 : i = k + 1
      · subst h2; simp only [rot_k, rot_k1]; linear_combination x (k + 1) * h
      · simp only [rot_ne h1 h2]

theorem sum_two {n k : Nat} (f : Nat → ℝ) (hk : k + 1 < n) (h : ∀ i, i ≠ k → i ≠ k + 1 → f i = 0) :
    ∑ i ∈ range n, f i = f k + f (k + 1) :=
  Finset.sum_eq_add k (k + 1) (by omega) (fun c _ hc => h c hc.1 hc.2) (fun h => absurd (mem_range.2 (by omega)) h)
    (fun h => absurd (mem_range.2 hk) h)

theorem sum_near {m k : Nat} (f : Nat → ℝ) (hk : k < m) (h : ∀ i, i + 1 ≠ k → i ≠ k → i ≠ k + 1 → f i = 0) :
    ∑ i ∈ range m, f i = (if 0 < k then f (k - 1) else 0) + f k + (if k + 1 < m then f (k + 1) else 0) := by
  have e : ∀ i ∈ range m, f i = ((if i + 1 = k then f i else 0) + (if i = k then f i else 0)) + (if i = k + 1 then f i else 0) := by
    intro i _
    by_cases h1 : i + 1 = k
    · rw [if_pos h1, if_neg (by omega), if_neg (by omega)]; ring
    · by_cases h2 : i = k
      · rw [if_neg h1, if_pos h2, if_neg (by omega)]; ring
      · by_cases h3 : i = k + 1
        · rw [if_neg h1, if_neg h2, if_pos h3]; ring
        · rw [if_neg h1, if_neg h2, if_neg h3, h i h1 h2 h3]; ring
  rw [sum_congr rfl e, sum_add_distrib, sum_add_distrib]
  congr 1
  · congr 1
    · by_cases h0 : 0 < k
      · rw [if_pos h0, Finset.sum_eq_single (k - 1), if_pos (by omega)]
        · intro b _ hb; rw [if_neg (by omega)]
        · intro hn; exact absurd (mem_range.2 (by omega)) hn
      · rw [if_neg h0]
        refine Finset.sum_eq_zero fun i _ => ?_
        rw [if_neg (by omega)]
    · rw [Finset.sum_ite_eq' (range m) k, if_pos (mem_range.2 hk)]
  · rw [Finset.sum_ite_eq' (range m) (k + 1)]
    simp only [mem_range]

theorem sq_rot {n k : Nat} {c s : ℝ} (h : c * c + s * s = 1) (hk : k + 1 < n) (x : Nat → ℝ) : sq n (rot k c s x) = sq n x := by
  have : sq n (rot k c s x) - sq n x = 0 := by
    unfold sq
    rw [← Finset.sum_sub_distrib, sum_two _ hk]
    · simp only [rot_k, rot_k1]
      linear_combination (x k ^ 2 + x (k + 1) ^ 2) * h
    · intro i h1 h2
      rw [rot_ne h1 h2, sub_self]
  linarith

theorem Sim.rotate {n k : Nat} {c s : ℝ} (h : c * c + s * s = 1) (hk : k + 1 < n) {F F' : (Nat → ℝ) → ℝ}
    (hF : ∀ x, F' x = F (rot k c s x)) : Sim n F F' 0 := by
  refine ⟨rotEquiv k c s h, fun x => sq_rot h hk x, fun x i hi => rot_ne (by omega) (by omega), fun x => ?_⟩
  · show |F' x - F (rot k c s x)| ≤ _
    rw [hF, sub_self, abs_zero, zero_mul]

/-- The effect of a rotation on the form of a tridiagonal matrix with a bulge `z` in row `k + 1` and column `k - 1`:
the bulge moves down by one. -/
theorem form_rot {n k : Nat} {c s z : ℝ} {d e d' e' : Nat → ℝ} (hk : k + 1 < n)
    (hd : d' = Function.update (Function.update d k (c * (c * d k - s * e k) - s * (c * e k - s * d (k + 1)))) (k + 1)
      (s * (s * d k + c * e k) + c * (s * e k + c * d (k + 1))))
    (he : e' k = c * (s * d k + c * e k) - s * (s * e k + c * d (k + 1)))
    (hp : 0 < k → (s * e (k - 1) + c * z = 0 ∧ e' (k - 1) = c * e (k - 1) - s * z))
    (hn : k + 2 < n → e' (k + 1) = c * e (k + 1))
    (ho : ∀ i, i + 1 ≠ k → i ≠ k → i ≠ k + 1 → e' i = e i) (x : Nat → ℝ) :
    form n d' e' x + (if k + 2 < n then 2 * (-s * e (k + 1)) * (x k * x (k + 2)) else 0) =
      form n d e (rot k c s x) +
        (if 0 < k then 2 * z * (rot k c s x (k - 1) * rot k c s x (k + 1)) else 0) := by
  have h1 : (∑ i ∈ range n, d' i * x i ^ 2) - ∑ i ∈ range n, d i * rot k c s x i ^ 2 =
      (d' k * x k ^ 2 - d k * rot k c s x k ^ 2) + (d' (k + 1) * x (k + 1) ^ 2 - d (k + 1) * rot k c s x (k + 1) ^ 2) := by
    rw [← Finset.sum_sub_distrib, sum_two _ hk]
    intro i i1 i2
    rw [rot_ne i1 i2, hd, Function.update_of_ne i2, Function.update_of_ne i1, sub_self]
  have h2 : (∑ i ∈ range (n - 1), e' i * (x i * x (i + 1))) -
      ∑ i ∈ range (n - 1), e i * (rot k c s x i * rot k c s x (i + 1)) =
      (if 0 < k then e' (k - 1) * (x (k - 1) * x (k - 1 + 1)) - e (k - 1) * (rot k c s x (k - 1) * rot k c s x (k - 1 + 1)) else 0) +
      (e' k * (x k * x (k + 1)) - e k * (rot k c s x k * rot k c s x (k + 1))) +
      (if k + 1 < n - 1 then e' (k + 1) * (x (k + 1) * x (k + 1 + 1)) - e (k + 1) * (rot k c s x (k + 1) * rot k c s x (k + 1 + 1)) else 0) := by
    rw [← Finset.sum_sub_distrib, sum_near (k := k) _ (by omega)]
    intro i i1 i2 i3
    rw [ho i i1 i2 i3, rot_ne i2 i3, rot_ne (i := i + 1) (by omega) (by omega), sub_self]
  have dk : d' k = c * (c * d k - s * e k) - s * (c * e k - s * d (k + 1)) := by
    rw [hd, Function.update_of_ne (by omega), Function.update_self]
  have dk1 : d' (k + 1) = s * (s * d k + c * e k) + c * (s * e k + c * d (k + 1)) := by
    rw [hd, Function.update_self]
  unfold form
  have h1' := sub_eq_iff_eq_add.1 h1
  have h2' := sub_eq_iff_eq_add.1 h2
  rw [h1', h2', dk, dk1, he]
  by_cases k0 : 0 < k
  · obtain ⟨j, rfl⟩ : ∃ j, k = j + 1 := ⟨k - 1, by omega⟩
    obtain ⟨p1, p2⟩ := hp k0
    simp only [if_pos k0, Nat.add_sub_cancel] at *
    have rj : rot (j + 1) c s x j = x j := rot_ne (by omega) (by omega)
    rw [p2, rj]
    by_cases kn : j + 1 + 2 < n
    · rw [if_pos kn, if_pos (by omega), hn kn, rot_ne (i := j + 1 + 1 + 1) (by omega) (by omega)]
      simp only [rot_k, rot_k1]
      linear_combination (-2 * x j * x (j + 2)) * p1
    · rw [if_neg kn, if_neg (by omega)]
      simp only [rot_k, rot_k1]
      linear_combination (-2 * x j * x (j + 2)) * p1
  · simp only [if_neg k0]
    by_cases kn : k + 2 < n
    · rw [if_pos kn, if_pos (by omega), hn kn, rot_ne (i := k + 1 + 1) (by omega) (by omega)]
      simp only [rot_k, rot_k1]
      ring
    · rw [if_neg kn, if_neg (by omega)]
      simp only [rot_k, rot_k1]
      ring

theorem givens_aux (t u p q : ℝ) (hu : u * u = 1 + t * t) (h : q = t * p) :
    1 / u * (1 / u) + -t * (1 / u) * (-t * (1 / u)) = 1 ∧ -t * (1 / u) * p + 1 / u * q = 0 := by
  have h0 : u ≠ 0 := by
    intro h0
    rw [h0] at hu
    nlinarith [mul_self_nonneg t]
  constructor
  · field_simp
    linear_combination -hu
  · rw [h]; ring

theorem makeGivens_spec (p q : ℝ) :
    (makeGivens p q).c * (makeGivens p q).c + (makeGivens p q).s * (makeGivens p q).s = 1 ∧
      (makeGivens p q).s * p + (makeGivens p q).c * q = 0 := by
  have hs : ∀ t : ℝ, √(1 + t * t) * √(1 + t * t) = 1 + t * t := fun t =>
    Real.mul_self_sqrt (by nlinarith [mul_self_nonneg t])
  have hs' : ∀ t : ℝ, -√(1 + t * t) * -√(1 + t * t) = 1 + t * t := fun t => by rw [neg_mul_neg]; exact hs t
  unfold makeGivens
  by_cases h1 : q = 0
  · rw [if_pos h1, h1]
    by_cases h2 : p < 0
    · simp [h2]
    · simp [h2]
  · rw [if_neg h1]
    by_cases h2 : p = 0
    · rw [if_pos h2, h2]
      by_cases h3 : q < 0
      · simp [h3]
      · simp [h3]
    · rw [if_neg h2]
      by_cases h3 : |p| > |q|
      · rw [if_pos h3]
        by_cases h4 : p < 0
        · simp only [if_pos h4]
          exact givens_aux _ _ _ _ (hs' _) (by field_simp)
        · simp only [if_neg h4]
          exact givens_aux _ _ _ _ (hs _) (by field_simp)
      · rw [if_neg h3]
        by_cases h4 : q < 0
        · simp only [if_pos h4]
          obtain ⟨a, b⟩ := givens_aux _ _ q p (hs' (p / q)) (by field_simp)
          constructor
          · linear_combination a
          · linear_combination -b
        · simp only [if_neg h4]
          obtain ⟨a, b⟩ := givens_aux _ _ q p (hs (p / q)) (by field_simp)
          constructor
          · linear_combination a
          · linear_combination -b

end Verif.Lanczos
