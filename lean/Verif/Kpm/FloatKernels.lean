import Verif.Kpm.Float
import Verif.Kpm.Stability

/-!
# The errors of the kernels in floating-point arithmetic
-/

namespace Verif.Kpm.Float

open Verif.Numeric Finset

/-! ## Single operations -/

/-- The operations have relative errors, measured by the unit roundoff `u`. -/
structure Ops.Good (o : Ops) (u : ℝ) : Prop where
  nonneg : 0 ≤ u
  acc : ∀ r a b, ‖o.acc r a b - (r + a * b)‖ ≤ u * ‖r‖ + ((1 + u) ^ 5 - 1) * (‖a‖ * ‖b‖)
  madd : ∀ a b c, ‖o.madd a b c - (c + a * b)‖ ≤ u * ‖c‖ + ((1 + u) ^ 5 - 1) * (‖a‖ * ‖b‖)
  sub : ∀ a b, ‖o.sub a b - (a - b)‖ ≤ u * ‖a - b‖
  mul : ∀ a b, ‖o.mul a b - a * b‖ ≤ ((1 + u) ^ 4 - 1) * (‖a‖ * ‖b‖)

theorem Ops.exact_good : Ops.exact.Good 0 := by
  refine ⟨le_refl _, ?_, ?_, ?_, ?_⟩ <;> intros <;> simp [Ops.exact, add_comm]

/-- A bound of both parts bounds the number. -/
theorem norm_le_of_parts {z : ℂ} {p q c : ℝ} (h1 : |z.re| ≤ p) (h2 : |z.im| ≤ q) (hc : 0 ≤ c) (h : p ^ 2 + q ^ 2 ≤ c ^ 2) : ‖z‖ ≤ c := by
  refine le_of_sq_le_sq ?_ hc
  rw [← Complex.normSq_eq_norm_sq, Complex.normSq_apply]
  have e1 : z.re * z.re = |z.re| ^ 2 := by rw [sq_abs, sq]
  have e2 : z.im * z.im = |z.im| ^ 2 := by rw [sq_abs, sq]
  rw [e1, e2]
  have a1 := abs_nonneg z.re
  have a2 := abs_nonneg z.im
  nlinarith

theorem Rounding.parts (R : Rounding) (z : ℂ) : ‖(⟨R.fl z.re, R.fl z.im⟩ : ℂ) - z‖ ≤ R.unit * ‖z‖ := by
  have hu := R.unit_nonneg
  refine norm_le_of_parts (p := R.unit * |z.re|) (q := R.unit * |z.im|) (R.near _) (R.near _) (by positivity) ?_
  rw [mul_pow, mul_pow, mul_pow, sq_abs, sq_abs, ← Complex.normSq_eq_norm_sq, Complex.normSq_apply]
  exact le_of_eq (by ring)

theorem Rounding.mul_near (R : Rounding) (a b : ℂ) : ‖R.mul a b - a * b‖ ≤ ((1 + R.unit) ^ 4 - 1) * (‖a‖ * ‖b‖) := by
  have hu := R.unit_nonneg
  have hab : 0 ≤ ‖a‖ * ‖b‖ := by positivity
  let z : ℂ := ⟨R.fl (a.re * b.re) - R.fl (a.im * b.im), R.fl (a.re * b.im) + R.fl (a.im * b.re)⟩
  have h1 : ‖z - a * b‖ ≤ 2 * R.unit * (‖a‖ * ‖b‖) := by
    refine norm_le_of_parts (p := R.unit * (|a.re * b.re| + |a.im * b.im|)) (q := R.unit * (|a.re * b.im| + |a.im * b.re|)) ?_ ?_ (by positivity) ?_
    · have e : (z - a * b).re = (R.fl (a.re * b.re) - a.re * b.re) - (R.fl (a.im * b.im) - a.im * b.im) := by
        simp only [z, Complex.sub_re, Complex.mul_re]; ring
      rw [e]
      refine (abs_sub _ _).trans ?_
      have := R.near (a.re * b.re)
      have := R.near (a.im * b.im)
      linarith
    · have e : (z - a * b).im = (R.fl (a.re * b.im) - a.re * b.im) + (R.fl (a.im * b.re) - a.im * b.re) := by
        simp only [z, Complex.sub_im, Complex.mul_im]; ring
      rw [e]
      refine (abs_add_le _ _).trans ?_
      have := R.near (a.re * b.im)
      have := R.near (a.im * b.re)
      linarith
    · rw [mul_pow, mul_pow, mul_pow, mul_pow, mul_pow, ← Complex.normSq_eq_norm_sq, ← Complex.normSq_eq_norm_sq, Complex.normSq_apply, Complex.normSq_apply]
      have s1 : (|a.re * b.re| + |a.im * b.im|) ^ 2 ≤ 2 * ((a.re * b.re) ^ 2 + (a.im * b.im) ^ 2) := by
        nlinarith [sq_abs (a.re * b.re), sq_abs (a.im * b.im), sq_nonneg (|a.re * b.re| - |a.im * b.im|)]
      have s2 : (|a.re * b.im| + |a.im * b.re|) ^ 2 ≤ 2 * ((a.re * b.im) ^ 2 + (a.im * b.re) ^ 2) := by
        nlinarith [sq_abs (a.re * b.im), sq_abs (a.im * b.re), sq_nonneg (|a.re * b.im| - |a.im * b.re|)]
      have hu2 := sq_nonneg R.unit
      have e : (a.re * a.re + a.im * a.im) * (b.re * b.re + b.im * b.im) =
          (a.re * b.re) ^ 2 + (a.im * b.im) ^ 2 + ((a.re * b.im) ^ 2 + (a.im * b.re) ^ 2) := by ring
      rw [e, ← mul_add]
      have n1 := sq_nonneg (a.re * b.re)
      have n2 := sq_nonneg (a.im * b.im)
      have n3 := sq_nonneg (a.re * b.im)
      have n4 := sq_nonneg (a.im * b.re)
      calc R.unit ^ 2 * ((|a.re * b.re| + |a.im * b.im|) ^ 2 + (|a.re * b.im| + |a.im * b.re|) ^ 2)
          ≤ R.unit ^ 2 * (2 * ((a.re * b.re) ^ 2 + (a.im * b.im) ^ 2) + 2 * ((a.re * b.im) ^ 2 + (a.im * b.re) ^ 2)) :=
            mul_le_mul_of_nonneg_left (add_le_add s1 s2) hu2
        _ ≤ _ := by
            have : 0 ≤ R.unit ^ 2 * ((a.re * b.re) ^ 2 + (a.im * b.im) ^ 2 + ((a.re * b.im) ^ 2 + (a.im * b.re) ^ 2)) := by positivity
            linarith
  have h2 : ‖R.mul a b - z‖ ≤ R.unit * ‖z‖ := R.parts z
  have h3 : ‖z‖ ≤ (1 + 2 * R.unit) * (‖a‖ * ‖b‖) := by
    have e : z = (z - a * b) + a * b := by ring
    have := norm_add_le (z - a * b) (a * b)
    rw [← e, norm_mul a b] at this
    linarith
  have h4 : ‖R.mul a b - a * b‖ ≤ ‖R.mul a b - z‖ + ‖z - a * b‖ := by
    have e : R.mul a b - a * b = (R.mul a b - z) + (z - a * b) := by ring
    rw [e]; exact norm_add_le _ _
  have h5 : R.unit * ‖z‖ ≤ R.unit * ((1 + 2 * R.unit) * (‖a‖ * ‖b‖)) := mul_le_mul_of_nonneg_left h3 hu
  have h6 : R.unit * (1 + 2 * R.unit) + 2 * R.unit ≤ (1 + R.unit) ^ 4 - 1 := by
    have e : (1 + R.unit) ^ 4 - 1 = 4 * R.unit + 6 * R.unit ^ 2 + 4 * R.unit ^ 3 + R.unit ^ 4 := by ring
    rw [e]
    have : 0 ≤ R.unit ^ 2 := by positivity
    have : 0 ≤ R.unit ^ 3 := by positivity
    have : 0 ≤ R.unit ^ 4 := by positivity
    nlinarith
  have h7 := mul_le_mul_of_nonneg_right h6 hab
  linarith

theorem Rounding.acc_near (R : Rounding) (r a b : ℂ) : ‖R.add r (R.mul a b) - (r + a * b)‖ ≤ R.unit * ‖r‖ + ((1 + R.unit) ^ 5 - 1) * (‖a‖ * ‖b‖) := by
  have hu := R.unit_nonneg
  have h1 := R.mul_near a b
  have h2 : ‖R.add r (R.mul a b) - (r + R.mul a b)‖ ≤ R.unit * ‖r + R.mul a b‖ := R.parts (r + R.mul a b)
  have h3 : ‖R.mul a b‖ ≤ (1 + R.unit) ^ 4 * (‖a‖ * ‖b‖) := by
    have e : R.mul a b = (R.mul a b - a * b) + a * b := by ring
    have := norm_add_le (R.mul a b - a * b) (a * b)
    rw [← e, norm_mul a b] at this
    linarith
  have h4 := norm_add_le r (R.mul a b)
  have h5 : ‖R.add r (R.mul a b) - (r + a * b)‖ ≤ ‖R.add r (R.mul a b) - (r + R.mul a b)‖ + ‖R.mul a b - a * b‖ := by
    have e : R.add r (R.mul a b) - (r + a * b) = (R.add r (R.mul a b) - (r + R.mul a b)) + (R.mul a b - a * b) := by ring
    rw [e]; exact norm_add_le _ _
  have h6 : R.unit * ‖r + R.mul a b‖ ≤ R.unit * (‖r‖ + (1 + R.unit) ^ 4 * (‖a‖ * ‖b‖)) := mul_le_mul_of_nonneg_left (by linarith) hu
  have e : ((1 + R.unit) ^ 5 - 1) * (‖a‖ * ‖b‖) = R.unit * ((1 + R.unit) ^ 4 * (‖a‖ * ‖b‖)) + ((1 + R.unit) ^ 4 - 1) * (‖a‖ * ‖b‖) := by ring
  rw [e]
  linarith

theorem Rounding.ops_good (R : Rounding) (fma : Bool) : (R.ops fma).Good R.unit := by
  have hu := R.unit_nonneg
  refine ⟨hu, R.acc_near, ?_, fun a b => R.parts (a - b), R.mul_near⟩
  intro a b c
  show ‖R.madd fma a b c - (c + a * b)‖ ≤ _
  unfold Rounding.madd
  split
  · rename_i h
    obtain ⟨_, ha, hb, hc⟩ := h
    have e : (⟨R.fl (a.re * b.re + c.re), 0⟩ : ℂ) - (c + a * b) = ((R.fl (a.re * b.re + c.re) - (a.re * b.re + c.re) : ℝ) : ℂ) := by
      apply Complex.ext
      · simp [ha, hb]; ring
      · simp [ha, hb, hc]
    rw [e, Complex.norm_real, Real.norm_eq_abs]
    refine (R.near _).trans ?_
    have na : ‖a‖ = |a.re| := by rw [show a = ((a.re : ℝ) : ℂ) from Complex.ext (by simp) (by simp [ha]), Complex.norm_real]; simp
    have nb : ‖b‖ = |b.re| := by rw [show b = ((b.re : ℝ) : ℂ) from Complex.ext (by simp) (by simp [hb]), Complex.norm_real]; simp
    have nc : ‖c‖ = |c.re| := by rw [show c = ((c.re : ℝ) : ℂ) from Complex.ext (by simp) (by simp [hc]), Complex.norm_real]; simp
    rw [na, nb, nc, ← abs_mul]
    have h1 := abs_add_le (a.re * b.re) c.re
    have h2 : R.unit ≤ (1 + R.unit) ^ 5 - 1 := by
      have := one_add_mul_le_pow (show (-2 : ℝ) ≤ R.unit by linarith) 5
      push_cast at this
      linarith
    have h3 := mul_le_mul_of_nonneg_right h2 (abs_nonneg (a.re * b.re))
    have h4 := mul_le_mul_of_nonneg_left h1 hu
    linarith
  · have e : R.add (R.mul a b) c = R.add c (R.mul a b) := by
      unfold Rounding.add; rw [add_comm (R.mul a b).re, add_comm (R.mul a b).im]
    rw [e]
    exact R.acc_near c a b

/-! ## Sums -/

/-- The error of a sum of `k` terms, each of which is added with a relative error. -/
theorem fold_near {ι : Type} {u : ℝ} (hu : 0 ≤ u) (d : Nat) (F : ι → ℂ → ℂ) (t : ι → ℂ) (s : ι → ℝ) (l : List ι)
    (hF : ∀ e ∈ l, ∀ r, ‖F e r - (r + t e)‖ ≤ u * ‖r‖ + ((1 + u) ^ (d + 1) - 1) * s e) (ht : ∀ e ∈ l, ‖t e‖ ≤ s e) (r : ℂ) :
    ‖l.foldl (fun r e => F e r) r - (r + (l.map t).sum)‖ ≤ ((1 + u) ^ l.length - 1) * ‖r‖ + ((1 + u) ^ (l.length + d) - 1) * (l.map s).sum := by
  have hp : 1 ≤ 1 + u := by linarith
  induction l generalizing r with
  | nil => simp
  | cons e l ih =>
    rw [List.foldl_cons, List.map_cons, List.sum_cons, List.map_cons, List.sum_cons, List.length_cons]
    have hs0 : 0 ≤ s e := (norm_nonneg _).trans (ht e (List.mem_cons_self ..))
    have h1 := hF e (List.mem_cons_self ..) r
    have h2 := ih (fun e he => hF e (List.mem_cons_of_mem _ he)) (fun e he => ht e (List.mem_cons_of_mem _ he)) (F e r)
    have h3 : ‖F e r‖ ≤ (1 + u) * ‖r‖ + (1 + u) ^ (d + 1) * s e := by
      have e1 : F e r = (F e r - (r + t e)) + (r + t e) := by ring
      have := norm_add_le (F e r - (r + t e)) (r + t e)
      rw [← e1] at this
      have := norm_add_le r (t e)
      have := ht e (List.mem_cons_self ..)
      linarith
    have hS : 0 ≤ (l.map s).sum := List.sum_nonneg fun y hy => by
      obtain ⟨x, hx, rfl⟩ := List.mem_map.1 hy
      exact (norm_nonneg _).trans (ht x (List.mem_cons_of_mem _ hx))
    have h4 : ‖l.foldl (fun r e => F e r) (F e r) - (r + (t e + (l.map t).sum))‖ ≤
        ‖l.foldl (fun r e => F e r) (F e r) - (F e r + (l.map t).sum)‖ + ‖F e r - (r + t e)‖ := by
      have e1 : l.foldl (fun r e => F e r) (F e r) - (r + (t e + (l.map t).sum)) =
          (l.foldl (fun r e => F e r) (F e r) - (F e r + (l.map t).sum)) + (F e r - (r + t e)) := by ring
      rw [e1]; exact norm_add_le _ _
    have p1 : 0 ≤ (1 + u) ^ l.length - 1 := by linarith [one_le_pow₀ hp (n := l.length)]
    have h5 := mul_le_mul_of_nonneg_left h3 p1
    have h6 : ((1 + u) ^ (l.length + d) - 1) * (l.map s).sum ≤ ((1 + u) ^ (l.length + 1 + d) - 1) * (l.map s).sum :=
      mul_le_mul_of_nonneg_right (by linarith [pow_le_pow_right₀ hp (show l.length + d ≤ l.length + 1 + d by omega)]) hS
    have e2 : ((1 + u) ^ (l.length + 1) - 1) * ‖r‖ = ((1 + u) ^ l.length - 1) * ((1 + u) * ‖r‖) + u * ‖r‖ := by ring
    have e3 : ((1 + u) ^ (l.length + 1 + d) - 1) * (s e + (l.map s).sum) =
        ((1 + u) ^ l.length - 1) * ((1 + u) ^ (d + 1) * s e) + ((1 + u) ^ (d + 1) - 1) * s e + ((1 + u) ^ (l.length + 1 + d) - 1) * (l.map s).sum := by ring
    rw [e2, e3]
    linarith

/-! ## The matrix of magnitudes -/

variable {n : Nat}

/-- The magnitudes of the stored elements. -/
noncomputable def rawNorm (m : Raw ℂ) : Raw ℝ := ⟨m.rows, m.cols, m.outer, m.inner, m.vals.map (‖·‖)⟩

/-- The magnitudes of the stored elements. -/
noncomputable def ellNorm (m : Ell ℂ) : Ell ℝ := ⟨m.rows, m.cols, m.nnzPerRow, m.dataRows, m.idxRows, fun i k => ‖m.data i k‖, m.indices⟩

theorem rawNorm_row (m : Raw ℂ) (i : Nat) : (rawNorm m).row i = (m.row i).map fun e => (e.1, ‖e.2‖) := by
  unfold Raw.row rawNorm
  simp only
  rw [List.zip_map_right, ← List.map_drop, ← List.map_take]
  rfl

theorem rowTerms {m : Raw ℂ} (h : m.WF) (hc : m.cols = n) (x : Fin n → ℂ) (i : Fin n) :
    ((m.row i.val).map fun e => e.2 * ex x e.1).sum = ∑ j, m.toMatrix n i j * x j := by
  have hcol : ∀ e ∈ m.row i.val, e.1 < n := fun e he => hc ▸ h.row_col he
  have := entries_sum (m.row i.val) hcol x (fun e => e.2 * ex x e.1) (fun e _ hh => by rw [ex_lt x hh, smul_eq_mul])
  rw [this]
  rfl

theorem rowNorms {m : Raw ℂ} (h : m.WF) (hc : m.cols = n) (x : Fin n → ℂ) (i : Fin n) :
    ((m.row i.val).map fun e => ‖e.2‖ * ‖ex x e.1‖).sum = ∑ j, (rawNorm m).toMatrix n i j * ‖x j‖ := by
  have hcol : ∀ e ∈ m.row i.val, e.1 < n := fun e he => hc ▸ h.row_col he
  have := entries_sum ((rawNorm m).row i.val) (n := n) (fun e he => by
    rw [rawNorm_row] at he
    obtain ⟨e', he', rfl⟩ := List.mem_map.1 he
    exact hcol e' he') (fun j => ‖x j‖) (fun e => e.2 * ‖ex x e.1‖) (fun e _ hh => by rw [ex_lt x hh, smul_eq_mul])
  rw [rawNorm_row, List.map_map] at this
  rw [show ((m.row i.val).map fun e => ‖e.2‖ * ‖ex x e.1‖) = (m.row i.val).map ((fun e => e.2 * ‖ex x e.1‖) ∘ fun e => (e.1, ‖e.2‖)) from rfl, this, ← rawNorm_row]
  rfl

theorem ellNorm_wf {m : Ell ℂ} (h : m.WF n) : (ellNorm m).WF n := ⟨h.rowsEq, h.dataOk, h.idxOk, h.colOk⟩

theorem range_list_sum {V : Type} [AddCommMonoid V] (f : Nat → V) (c : Nat) : ((List.range c).map f).sum = ∑ k ∈ range c, f k := by
  induction c with
  | zero => rfl
  | succ c ih => rw [List.range_succ, List.map_append, List.sum_append, ih, sum_range_succ]; simp

theorem ellTerms {m : Ell ℂ} (h : m.WF n) (x : Fin n → ℂ) (i : Fin n) :
    ((List.range m.nnzPerRow).map fun k => m.data i k * ex x (m.indices i k)).sum = ∑ j, m.toMatrix n i j * x j := by
  have := ellPart_all h x i
  simp only [smul_eq_mul] at this
  rw [← this, range_list_sum]
  unfold ellPart
  refine sum_congr rfl fun k hk => ?_
  have hlt := h.colOk i.val i.isLt k (mem_range.1 hk)
  unfold ellTerm
  rw [dif_pos hlt, ex_lt x hlt, smul_eq_mul]

theorem ellNorms {m : Ell ℂ} (h : m.WF n) (x : Fin n → ℂ) (i : Fin n) :
    ((List.range m.nnzPerRow).map fun k => ‖m.data i k‖ * ‖ex x (m.indices i k)‖).sum = ∑ j, (ellNorm m).toMatrix n i j * ‖x j‖ := by
  have := ellPart_all (ellNorm_wf h) (fun j => ‖x j‖) i
  simp only [smul_eq_mul] at this
  rw [← this, range_list_sum]
  unfold ellPart
  refine sum_congr rfl fun k hk => ?_
  have hlt := h.colOk i.val i.isLt k (mem_range.1 hk)
  unfold ellTerm
  rw [dif_pos (show (ellNorm m).indices i.val k < n from hlt), ex_lt x hlt, smul_eq_mul]
  rfl

/-! ## The kernels -/

variable {o : Ops} {u : ℝ}

/-- The relative error of kernels for rows of at most `N` elements. -/
noncomputable def gam (u : ℝ) (N : Nat) : ℝ := (1 + u) ^ (N + 8) - 1

theorem pow_sub_le_gam (hu : 0 ≤ u) {k N : Nat} (h : k ≤ N + 8) : (1 + u) ^ k - 1 ≤ gam u N := by
  unfold gam
  linarith [pow_le_pow_right₀ (show 1 ≤ 1 + u by linarith) h]

theorem gam_nonneg (hu : 0 ≤ u) (N : Nat) : 0 ≤ gam u N := by
  have := pow_sub_le_gam hu (Nat.zero_le (N + 8))
  simpa using this

theorem list_norms_nonneg {ι : Type} (l : List ι) (s : ι → ℝ) (h : ∀ e, 0 ≤ s e) : 0 ≤ (l.map s).sum :=
  List.sum_nonneg fun y hy => by
    obtain ⟨x, _, rfl⟩ := List.mem_map.1 hy
    exact h x

/-- The sum of a row in CSR format. -/
noncomputable def rowVal (o : Ops) (m : Raw ℂ) (x : Fin n → ℂ) (row : Nat) : ℂ := (m.row row).foldl (fun r e => o.acc r e.2 (ex x e.1)) 0

theorem rowSum_eq {m : Raw ℂ} (h : m.WF) (hr : m.rows = n) (hc : m.cols = n) (x : Fin n → ℂ) {i : Nat} (hi : i < n) :
    rowSum o m x i = .ok (rowVal o m x i) := by
  have hi' : i < m.rows := by omega
  unfold rowSum
  rw [h.outer_at i (by omega), Res.bind_ok, h.outer_at (i + 1) hi', Res.bind_ok]
  refine Eq.trans (h.row_loop' i hi' (fun r c a => getV x c >>= fun b => pure (o.acc r a b)) 0) ?_
  have hcol : ∀ e ∈ m.row i, e.1 < n := fun e he => hc ▸ h.row_col he
  rw [foldlM_ok' _ (fun r e => o.acc r e.2 (ex x e.1)) _ _ (fun e he r => by
    rw [getV_ok x e.1 (hcol e he), Res.bind_ok, ex_lt x (hcol e he)]; rfl)]
  rfl

theorem rowVal_near (hg : o.Good u) {m : Raw ℂ} (h : m.WF) (hc : m.cols = n) (x : Fin n → ℂ) (i : Fin n) :
    ‖rowVal o m x i.val - ∑ j, m.toMatrix n i j * x j‖ ≤ ((1 + u) ^ ((m.row i.val).length + 4) - 1) * ∑ j, (rawNorm m).toMatrix n i j * ‖x j‖ := by
  have := fold_near hg.nonneg 4 (fun (e : Nat × ℂ) r => o.acc r e.2 (ex x e.1)) (fun e => e.2 * ex x e.1) (fun e => ‖e.2‖ * ‖ex x e.1‖) (m.row i.val)
    (fun e _ r => hg.acc r e.2 (ex x e.1)) (fun e _ => le_of_eq (norm_mul _ _)) 0
  rw [rowTerms h hc, rowNorms h hc, zero_add, norm_zero, mul_zero, zero_add] at this
  exact this

theorem spmvCsr_follows (hg : o.Good u) {m : Raw ℂ} (h : m.WF) (hr : m.rows = n) (hc : m.cols = n) {N : Nat} (hN : ∀ i < m.rows, (m.row i).length ≤ N)
    (start stop : Nat) (hs : stop ≤ n) (x y : Fin n → ℂ) :
    ∃ y', spmvCsr o m start stop x y = .ok y' ∧ (nearRule (m.toMatrix n) ((rawNorm m).toMatrix n) (gam u N)).Moved start stop x y y' := by
  have hu := hg.nonneg
  refine ⟨onRows (fun r old => o.sub (rowVal o m x r) old) (List.range' start (stop - start)) y, ?_, ?_, ?_⟩
  · unfold spmvCsr
    refine rowsLoop' _ _ _ (nodup_range' ..) (range'_lt hs) y fun y r hr' _ => ?_
    rw [rowSum_eq h hr hc x hr', Res.bind_ok, getV_ok y r hr', Res.bind_ok, setV_ok _ _ _ hr']
  · intro i h1 h2
    have e : onRows (fun r old => o.sub (rowVal o m x r) old) (List.range' start (stop - start)) y i = o.sub (rowVal o m x i.val) (y i) := by
      unfold onRows
      rw [if_pos ((range'_mem start stop i.val).2 ⟨h1, h2⟩)]
    rw [e]
    show ‖o.sub (rowVal o m x i.val) (y i) - (∑ j, m.toMatrix n i j * x j - y i)‖ ≤ gam u N * (∑ j, (rawNorm m).toMatrix n i j * ‖x j‖ + ‖y i‖)
    have hlen : (m.row i.val).length ≤ N := hN i.val (by rw [hr]; exact i.isLt)
    have n1 := rowVal_near hg h hc x i
    rw [← rowTerms h hc x i, ← rowNorms h hc x i] at n1 ⊢
    have hle : ‖((m.row i.val).map fun e => e.2 * ex x e.1).sum‖ ≤ ((m.row i.val).map fun e => ‖e.2‖ * ‖ex x e.1‖).sum := by
      have := fold_near (le_refl (0 : ℝ)) 0 (fun (e : Nat × ℂ) (r : ℂ) => (0 : ℂ) + r + e.2 * ex x e.1) (fun e => e.2 * ex x e.1) (fun e => ‖e.2‖ * ‖ex x e.1‖)
        (m.row i.val) (fun e _ r => by simp) (fun e _ => le_of_eq (norm_mul _ _)) 0
      clear this n1 hlen
      induction m.row i.val with
      | nil => simp
      | cons e l ih =>
        rw [List.map_cons, List.sum_cons, List.map_cons, List.sum_cons]
        exact (norm_add_le _ _).trans (add_le_add (le_of_eq (norm_mul _ _)) ih)
    have hS : 0 ≤ ((m.row i.val).map fun e => ‖e.2‖ * ‖ex x e.1‖).sum := list_norms_nonneg _ _ fun e => by positivity
    have n2 := hg.sub (rowVal o m x i.val) (y i)
    generalize ((m.row i.val).map fun e => ‖e.2‖ * ‖ex x e.1‖).sum = S at *
    generalize ((m.row i.val).map fun e => e.2 * ex x e.1).sum = s at *
    have n3 : ‖o.sub (rowVal o m x i.val) (y i) - (s - y i)‖ ≤ ‖o.sub (rowVal o m x i.val) (y i) - (rowVal o m x i.val - y i)‖ + ‖rowVal o m x i.val - s‖ := by
      have e : o.sub (rowVal o m x i.val) (y i) - (s - y i) = (o.sub (rowVal o m x i.val) (y i) - (rowVal o m x i.val - y i)) + (rowVal o m x i.val - s) := by ring
      rw [e]; exact norm_add_le _ _
    have n4 : ‖rowVal o m x i.val - y i‖ ≤ ‖rowVal o m x i.val - s‖ + S + ‖y i‖ := by
      have e : rowVal o m x i.val - y i = (rowVal o m x i.val - s) + s - y i := by ring
      rw [e]
      refine (norm_sub_le _ _).trans ?_
      have := norm_add_le (rowVal o m x i.val - s) s
      linarith
    have n5 : ‖o.sub (rowVal o m x i.val) (y i) - (s - y i)‖ ≤ ((1 + u) ^ ((m.row i.val).length + 5) - 1) * S + u * ‖y i‖ := by
      have a1 := mul_le_mul_of_nonneg_left n4 hu
      have a2 := mul_le_mul_of_nonneg_left n1 (show 0 ≤ 1 + u by linarith)
      have e : ((1 + u) ^ ((m.row i.val).length + 5) - 1) * S = (1 + u) * (((1 + u) ^ ((m.row i.val).length + 4) - 1) * S) + u * S := by ring
      rw [e]
      linarith
    have g1 := pow_sub_le_gam hu (show (m.row i.val).length + 5 ≤ N + 8 by omega)
    have g2 := pow_sub_le_gam hu (show 1 ≤ N + 8 by omega)
    rw [pow_one] at g2
    have b1 := mul_le_mul_of_nonneg_right g1 hS
    have b2 := mul_le_mul_of_nonneg_right (show u ≤ gam u N by linarith) (norm_nonneg (y i))
    rw [mul_add]
    linarith
  · intro i hi
    unfold onRows
    rw [if_neg fun hm => hi ((range'_mem start stop i.val).1 hm)]

theorem r1Csr_follows (hg : o.Good u) {m : Raw ℂ} (h : m.WF) (hr : m.rows = n) (hc : m.cols = n) {N : Nat} (hN : ∀ i < m.rows, (m.row i).length ≤ N)
    (junk r0 : Fin n → ℂ) :
    ∃ w, r1Csr o junk m r0 = .ok w ∧ (nearRule (m.toMatrix n) ((rawNorm m).toMatrix n) (gam u N)).first r0 w := by
  have hu := hg.nonneg
  refine ⟨onRows (fun r _ => o.mul (rowVal o m r0 r) (1 / 2)) (List.range' 0 m.rows) junk, ?_, ?_⟩
  · unfold r1Csr
    rw [List.range_eq_range']
    refine rowsLoop' _ _ _ (nodup_range' ..) (fun r hr' => by have := List.mem_range'_1.1 hr'; omega) junk fun y r hr' _ => ?_
    rw [rowSum_eq h hr hc r0 hr', Res.bind_ok, setV_ok _ _ _ hr']
  · intro i
    have e : onRows (fun r _ => o.mul (rowVal o m r0 r) (1 / 2)) (List.range' 0 m.rows) junk i = o.mul (rowVal o m r0 i.val) (1 / 2) := by
      unfold onRows
      rw [if_pos (by rw [List.mem_range'_1]; have := i.isLt; omega)]
    rw [e]
    have hlen : (m.row i.val).length ≤ N := hN i.val (by rw [hr]; exact i.isLt)
    have n1 := rowVal_near hg h hc r0 i
    have n2 := hg.mul (rowVal o m r0 i.val) (1 / 2)
    have hs : ∑ j, m.toMatrix n i j / 2 * r0 j = (∑ j, m.toMatrix n i j * r0 j) * (1 / 2) := by
      rw [sum_mul]; exact sum_congr rfl fun j _ => by ring
    rw [hs]
    have hle : ‖∑ j, m.toMatrix n i j * r0 j‖ ≤ ∑ j, (rawNorm m).toMatrix n i j * ‖r0 j‖ := by
      rw [← rowTerms h hc r0 i, ← rowNorms h hc r0 i]
      clear n1 n2 hlen e
      induction m.row i.val with
      | nil => simp
      | cons e l ih =>
        rw [List.map_cons, List.sum_cons, List.map_cons, List.sum_cons]
        exact (norm_add_le _ _).trans (add_le_add (le_of_eq (norm_mul _ _)) ih)
    generalize ∑ j, (rawNorm m).toMatrix n i j * ‖r0 j‖ = S at *
    generalize ∑ j, m.toMatrix n i j * r0 j = s at *
    have hS : 0 ≤ S := (norm_nonneg _).trans hle
    have hhalf : ‖(1 / 2 : ℂ)‖ = 1 / 2 := by norm_num
    rw [hhalf] at n2
    have n3 : ‖o.mul (rowVal o m r0 i.val) (1 / 2) - s * (1 / 2)‖ ≤ ‖o.mul (rowVal o m r0 i.val) (1 / 2) - rowVal o m r0 i.val * (1 / 2)‖ +
        ‖rowVal o m r0 i.val - s‖ * (1 / 2) := by
      have e : o.mul (rowVal o m r0 i.val) (1 / 2) - s * (1 / 2) =
          (o.mul (rowVal o m r0 i.val) (1 / 2) - rowVal o m r0 i.val * (1 / 2)) + (rowVal o m r0 i.val - s) * (1 / 2) := by ring
      rw [e]
      refine (norm_add_le _ _).trans ?_
      rw [norm_mul (rowVal o m r0 i.val - s), hhalf]
    have n4 : ‖rowVal o m r0 i.val‖ ≤ ‖rowVal o m r0 i.val - s‖ + S := by
      have e : rowVal o m r0 i.val = (rowVal o m r0 i.val - s) + s := by ring
      have := norm_add_le (rowVal o m r0 i.val - s) s
      rw [← e] at this
      linarith
    have p4 : 0 ≤ (1 + u) ^ 4 - 1 := by linarith [one_le_pow₀ (show 1 ≤ 1 + u by linarith) (n := 4)]
    have a1 := mul_le_mul_of_nonneg_left n4 p4
    have a2 := mul_le_mul_of_nonneg_left n1 (show 0 ≤ (1 + u) ^ 4 by positivity)
    have e : ((1 + u) ^ ((m.row i.val).length + 8) - 1) * S = (1 + u) ^ 4 * (((1 + u) ^ ((m.row i.val).length + 4) - 1) * S) + ((1 + u) ^ 4 - 1) * S := by ring
    have g1 := mul_le_mul_of_nonneg_right (pow_sub_le_gam hu (show (m.row i.val).length + 8 ≤ N + 8 by omega)) hS
    have g0 := mul_nonneg (gam_nonneg hu N) hS
    rw [e] at g1
    linarith

/-! ### ELLPACK -/

/-- What column `k` does to an element of row `r`, in a vector or alone. -/
noncomputable def laneVal (o : Ops) (vec : Bool) (m : Ell ℂ) (x : Fin n → ℂ) (k r : Nat) (c : ℂ) : ℂ :=
  if vec then o.madd (m.data r k) (ex x (m.indices r k)) c else o.acc c (m.data r k) (ex x (m.indices r k))

theorem laneVal_near (hg : o.Good u) (vec : Bool) (m : Ell ℂ) (x : Fin n → ℂ) (k r : Nat) (c : ℂ) :
    ‖laneVal o vec m x k r c - (c + m.data r k * ex x (m.indices r k))‖ ≤
      u * ‖c‖ + ((1 + u) ^ (4 + 1) - 1) * (‖m.data r k‖ * ‖ex x (m.indices r k)‖) := by
  unfold laneVal
  split
  · exact hg.madd _ _ _
  · exact hg.acc _ _ _

/-- All columns of a row, each in a vector or alone. -/
noncomputable def laneFold (o : Ops) (vec : Nat → Nat → Bool) (m : Ell ℂ) (x : Fin n → ℂ) (r : Nat) (c : Nat) (v : ℂ) : ℂ :=
  (List.range c).foldl (fun v k => laneVal o (vec k r) m x k r v) v

theorem laneFold_near (hg : o.Good u) (vec : Nat → Nat → Bool) {m : Ell ℂ} (h : m.WF n) {N : Nat} (hN : m.nnzPerRow ≤ N) (x y : Fin n → ℂ) (i : Fin n) :
    (nearRule (m.toMatrix n) ((ellNorm m).toMatrix n) (gam u N)).step i x (y i) (laneFold o vec m x i.val m.nnzPerRow (-y i)) := by
  have hu := hg.nonneg
  have := fold_near hu 4 (fun k v => laneVal o (vec k i.val) m x k i.val v) (fun k => m.data i.val k * ex x (m.indices i.val k))
    (fun k => ‖m.data i.val k‖ * ‖ex x (m.indices i.val k)‖) (List.range m.nnzPerRow) (fun k _ v => laneVal_near hg _ m x k i.val v)
    (fun k _ => le_of_eq (norm_mul _ _)) (-y i)
  rw [ellTerms h, ellNorms h, List.length_range, norm_neg] at this
  show ‖laneFold o vec m x i.val m.nnzPerRow (-y i) - (∑ j, m.toMatrix n i j * x j - y i)‖ ≤ gam u N * (∑ j, (ellNorm m).toMatrix n i j * ‖x j‖ + ‖y i‖)
  have e : -y i + ∑ j, m.toMatrix n i j * x j = ∑ j, m.toMatrix n i j * x j - y i := by ring
  rw [e] at this
  have hS : 0 ≤ ∑ j, (ellNorm m).toMatrix n i j * ‖x j‖ := by
    rw [← ellNorms h]; exact list_norms_nonneg _ _ fun e => by positivity
  have g1 := mul_le_mul_of_nonneg_right (pow_sub_le_gam hu (show m.nnzPerRow + 4 ≤ N + 8 by omega)) hS
  have g2 := mul_le_mul_of_nonneg_right (pow_sub_le_gam hu (show m.nnzPerRow ≤ N + 8 by omega)) (norm_nonneg (y i))
  rw [mul_add]
  exact this.trans (by linarith)

theorem ell_reads {m : Ell ℂ} (h : m.WF n) (x : Fin n → ℂ) {row k : Nat} (hr : row < n) (hk : k < m.nnzPerRow) :
    m.dataAt row k = .ok (m.data row k) ∧ m.idxAt row k = .ok (m.indices row k) ∧ getV x (m.indices row k) = .ok (ex x (m.indices row k)) := by
  obtain ⟨h1, h2, _⟩ := h.reads x hr hk
  have := h.colOk row hr k hk
  exact ⟨h1, h2, by rw [getV_ok x _ this, ex_lt x this]⟩

theorem laneFold_succ (vec : Nat → Nat → Bool) (m : Ell ℂ) (x : Fin n → ℂ) (r c : Nat) (v : ℂ) :
    laneFold o vec m x r (c + 1) v = laneVal o (vec c r) m x c r (laneFold o vec m x r c v) := by
  unfold laneFold
  rw [List.range_succ, List.foldl_append]
  rfl

theorem moved_onRows {A : Matrix (Fin n) (Fin n) ℂ} {B : Matrix (Fin n) (Fin n) ℝ} {γ : ℝ} {start stop : Nat} {x y : Fin n → ℂ} {F : Nat → ℂ → ℂ}
    (h : ∀ i : Fin n, (nearRule A B γ).step i x (y i) (F i.val (y i))) :
    (nearRule A B γ).Moved start stop x y (onRows F (List.range' start (stop - start)) y) := by
  refine ⟨fun i h1 h2 => ?_, fun i hi => ?_⟩
  · have e : onRows F (List.range' start (stop - start)) y i = F i.val (y i) := by
      unfold onRows
      rw [if_pos ((range'_mem start stop i.val).2 ⟨h1, h2⟩)]
    rw [e]
    exact h i
  · unfold onRows
    rw [if_neg fun hm => hi ((range'_mem start stop i.val).1 hm)]

theorem spmvEll_eq {m : Ell ℂ} (h : m.WF n) (start stop : Nat) (hs : stop ≤ n) (x y : Fin n → ℂ) :
    spmvEll o m start stop x y =
      .ok (onRows (fun r old => laneFold o (fun _ _ => false) m x r m.nnzPerRow (-old)) (List.range' start (stop - start)) y) := by
  unfold spmvEll
  rw [rowsLoop' (fun _ old => -old) _ _ (nodup_range' ..) (range'_lt hs) y (fun y r hr _ => by
    rw [getV_ok y r hr, Res.bind_ok, setV_ok _ _ _ hr]), Res.bind_ok]
  suffices H : ∀ c ≤ m.nnzPerRow, (List.range c).foldlM (fun y k =>
      (List.range' start (stop - start)).foldlM (fun y row => do
        let a ← m.dataAt row k
        let c ← m.idxAt row k
        let b ← getV x c
        let old ← getV y row
        setV y row (o.acc old a b)) y) (onRows (fun _ old => -old) (List.range' start (stop - start)) y) =
      .ok (onRows (fun r old => laneFold o (fun _ _ => false) m x r c (-old)) (List.range' start (stop - start)) y) from H _ (le_refl _)
  intro c hc
  induction c with
  | zero => rfl
  | succ c ih =>
    rw [List.range_succ, List.foldlM_append, ih (by omega), Res.bind_ok, List.foldlM_cons]
    rw [rowsLoop' (fun r old => laneVal o false m x c r old) _ _ (nodup_range' ..) (range'_lt hs)]
    · rw [Res.bind_ok]
      show Res.ok _ = Res.ok _
      congr 1
      funext i
      unfold onRows
      split
      · exact (laneFold_succ (o := o) (fun _ _ => false) m x i.val c (-y i)).symm
      · rfl
    · intro y r hr _
      obtain ⟨h1, h2, h3⟩ := ell_reads h x hr (show c < m.nnzPerRow by omega)
      rw [h1, Res.bind_ok, h2, Res.bind_ok, h3, Res.bind_ok, getV_ok y r hr, Res.bind_ok, setV_ok _ _ _ hr]
      rfl

theorem spmvEll_follows (hg : o.Good u) {m : Ell ℂ} (h : m.WF n) {N : Nat} (hN : m.nnzPerRow ≤ N) (start stop : Nat) (hs : stop ≤ n) (x y : Fin n → ℂ) :
    ∃ y', spmvEll o m start stop x y = .ok y' ∧ (nearRule (m.toMatrix n) ((ellNorm m).toMatrix n) (gam u N)).Moved start stop x y y' :=
  ⟨_, spmvEll_eq h start stop hs x y, moved_onRows fun i => laneFold_near hg _ h hN x y i⟩

/-- What column `k` does to an element in the vectorised kernel. -/
noncomputable def signedLane (o : Ops) (vec : Nat → Bool) (m : Ell ℂ) (x : Fin n → ℂ) (k r : Nat) (old : ℂ) : ℂ :=
  laneVal o (vec r) m x k r (if k = 0 then -old else old)

theorem lane_eq {m : Ell ℂ} (h : m.WF n) (vec : Bool) (x y : Fin n → ℂ) {k r : Nat} (hk : k < m.nnzPerRow) (hr : r < n) :
    lane o vec m k x y r = .ok (laneVal o vec m x k r (if k = 0 then -y ⟨r, hr⟩ else y ⟨r, hr⟩)) := by
  obtain ⟨h1, h2, h3⟩ := ell_reads h x hr hk
  unfold lane
  rw [h1, Res.bind_ok, h2, Res.bind_ok, h3, Res.bind_ok, getV_ok y r hr, Res.bind_ok]
  rfl

theorem scalarRows' {m : Ell ℂ} (h : m.WF n) (vec : Nat → Bool) (x y : Fin n → ℂ) {k : Nat} (hk : k < m.nnzPerRow) (l : List Nat) (hnd : l.Nodup)
    (hl : ∀ r ∈ l, r < n) (hv : ∀ r ∈ l, vec r = false) : l.foldlM (scalarStep o m k x) y = .ok (onRows (signedLane o vec m x k) l y) := by
  refine rowsLoop' _ _ l hnd hl y fun y r hr hm => ?_
  unfold scalarStep
  rw [lane_eq h false x y hk hr, Res.bind_ok, setV_ok _ _ _ hr]
  unfold signedLane
  rw [hv r hm]

theorem vecStep_eq {m : Ell ℂ} (h : m.WF n) (vec : Nat → Bool) (x y : Fin n → ℂ) {k : Nat} (hk : k < m.nnzPerRow) (step row : Nat) (hr : row + step ≤ n)
    (hv : ∀ r ∈ List.range' row step, vec r = true) :
    vecStep o m k step x y row = .ok (onRows (signedLane o vec m x k) (List.range' row step) y) := by
  have hl : ∀ r ∈ List.range' row step, r < n := fun r hm => by
    have := List.mem_range'_1.1 hm; omega
  unfold vecStep
  rw [mapM_ok _ (fun r => signedLane o vec m x k r (ex y r)) _ (fun r hm => by
    rw [lane_eq h true x y hk (hl r hm), ex_lt y (hl r hm)]
    unfold signedLane
    rw [hv r hm]), Res.bind_ok, store_lanes _ _ (nodup_range' ..) hl]
  congr 1
  funext i
  simp only [onRows, ex_lt y i.isLt]

theorem onRows_append {V : Type} (F : Nat → V → V) (l l' : List Nat) (hd : ∀ r ∈ l, r ∉ l') (y : Fin n → V) :
    onRows F l' (onRows F l y) = onRows F (l ++ l') y := by
  funext i
  unfold onRows
  by_cases h1 : i.val ∈ l
  · rw [if_pos h1, if_neg (hd _ h1), if_pos (List.mem_append_left _ h1)]
  · rw [if_neg h1]
    by_cases h2 : i.val ∈ l'
    · rw [if_pos h2, if_pos (List.mem_append_right _ h2)]
    · rw [if_neg h2, if_neg (by rw [List.mem_append]; tauto)]

theorem vecRows {m : Ell ℂ} (h : m.WF n) (vec : Nat → Bool) (x : Fin n → ℂ) {k : Nat} (hk : k < m.nnzPerRow) (step a t : Nat) (hn : a + t * step ≤ n)
    (hv : ∀ r, a ≤ r → r < a + t * step → vec r = true) (y : Fin n → ℂ) :
    (List.range' a t step).foldlM (vecStep o m k step x) y = .ok (onRows (signedLane o vec m x k) (List.range' a (t * step)) y) := by
  induction t generalizing a y with
  | zero =>
    simp only [List.range'_zero, List.foldlM_nil, Nat.zero_mul]
    show Res.ok _ = Res.ok _
    congr 1
  | succ t ih =>
    have e : (t + 1) * step = step + t * step := by rw [Nat.add_mul, Nat.one_mul, Nat.add_comm]
    rw [e] at hn hv
    rw [List.range'_succ, List.foldlM_cons, vecStep_eq h vec x y hk step a (by omega) (fun r hm => by
      have := List.mem_range'_1.1 hm
      exact hv r (by omega) (by omega)), Res.bind_ok, ih (a + step) (by omega) (fun r h1 h2 => hv r (by omega) (by omega)), onRows_append, e]
    · congr 3
      exact List.range'_append_1
    · intro r h1 h2
      have := List.mem_range'_1.1 h1
      have := List.mem_range'_1.1 h2
      omega

theorem column_eq {m : Ell ℂ} (h : m.WF n) (aligned : Nat → Bool) (step : Nat) (hstep : 0 < step) {k : Nat} (hk : k < m.nnzPerRow) (start stop : Nat)
    (hs : start ≤ stop) (hn : stop ≤ n) (x y : Fin n → ℂ) :
    column o m k step (splitLoop aligned step start stop) x y =
      .ok (onRows (signedLane o (fun r => decide ((splitLoop aligned step start stop).peelEnd ≤ r ∧ r < (splitLoop aligned step start stop).vecEnd)) m x k)
        (List.range' start (stop - start)) y) := by
  obtain ⟨e1, e2, h1, h2, h3, h4, _, _⟩ := splitLoop_spec aligned step start stop hstep hs
  generalize splitLoop aligned step start stop = l at *
  have ht := trips_eq _ _ _ hstep h4
  unfold column
  rw [e1, e2]
  rw [scalarRows' h (fun r => decide (l.peelEnd ≤ r ∧ r < l.vecEnd)) x y hk _ (nodup_range' ..) (fun r hr => by
      have := List.mem_range'_1.1 hr; omega) (fun r hr => by
      have := List.mem_range'_1.1 hr
      exact decide_eq_false (by omega)), Res.bind_ok,
    vecRows h (fun r => decide (l.peelEnd ≤ r ∧ r < l.vecEnd)) x hk step l.peelEnd _ (by omega) (fun r a b => decide_eq_true ⟨a, by omega⟩), Res.bind_ok,
    scalarRows' h (fun r => decide (l.peelEnd ≤ r ∧ r < l.vecEnd)) x _ hk _ (nodup_range' ..) (fun r hr => by
      have := List.mem_range'_1.1 hr; omega) (fun r hr => by
      have := List.mem_range'_1.1 hr
      exact decide_eq_false (by omega)), ht, onRows_append, onRows_append]
  · congr 2
    rw [← List.append_assoc]
    have a1 := List.range'_append_1 (s := start) (m := l.peelEnd - start) (n := l.vecEnd - l.peelEnd)
    rw [show start + (l.peelEnd - start) = l.peelEnd by omega] at a1
    rw [a1]
    have a2 := List.range'_append_1 (s := start) (m := l.peelEnd - start + (l.vecEnd - l.peelEnd)) (n := stop - l.vecEnd)
    rw [show start + (l.peelEnd - start + (l.vecEnd - l.peelEnd)) = l.vecEnd by omega,
      show l.peelEnd - start + (l.vecEnd - l.peelEnd) + (stop - l.vecEnd) = stop - start by omega] at a2
    exact a2
  · intro r b1 b2
    have := List.mem_range'_1.1 b1
    rcases List.mem_append.1 b2 with b | b <;>
    · have := List.mem_range'_1.1 b
      omega
  · intro r b1 b2
    have := List.mem_range'_1.1 b1
    have := List.mem_range'_1.1 b2
    omega

theorem spmvSimd_follows (hg : o.Good u) {m : Ell ℂ} (h : m.WF n) {N : Nat} (hN : m.nnzPerRow ≤ N) (h0 : 0 < m.nnzPerRow) (aligned : Nat → Bool) (step : Nat)
    (hstep : 0 < step) (start stop : Nat) (hse : start ≤ stop) (hs : stop ≤ n) (x y : Fin n → ℂ) :
    ∃ y', spmvSimd o m aligned step start stop x y = .ok y' ∧
      (nearRule (m.toMatrix n) ((ellNorm m).toMatrix n) (gam u N)).Moved start stop x y y' := by
  let vec : Nat → Bool := fun r => decide ((splitLoop aligned step start stop).peelEnd ≤ r ∧ r < (splitLoop aligned step start stop).vecEnd)
  refine ⟨onRows (fun r old => laneFold o (fun _ => vec) m x r m.nnzPerRow (-old)) (List.range' start (stop - start)) y, ?_,
    moved_onRows fun i => laneFold_near hg _ h hN x y i⟩
  unfold spmvSimd
  suffices H : ∀ c, c < m.nnzPerRow → (List.range (c + 1)).foldlM (fun y k => column o m k step (splitLoop aligned step start stop) x y) y =
      .ok (onRows (fun r old => laneFold o (fun _ => vec) m x r (c + 1) (-old)) (List.range' start (stop - start)) y) by
    have := H (m.nnzPerRow - 1) (by omega)
    rwa [show m.nnzPerRow - 1 + 1 = m.nnzPerRow by omega] at this
  intro c hc
  induction c with
  | zero =>
    rw [show List.range (0 + 1) = [0] from rfl, List.foldlM_cons, column_eq h aligned step hstep h0 start stop hse hs, Res.bind_ok]
    rfl
  | succ c ih =>
    rw [List.range_succ, List.foldlM_append, ih (by omega), Res.bind_ok, List.foldlM_cons,
      column_eq h aligned step hstep hc start stop hse hs, Res.bind_ok, onRows_comp]
    show Res.ok _ = Res.ok _
    congr 2
    funext r v
    rw [laneFold_succ (c := c + 1)]
    rfl

/-- What column `k` adds to an element of the first vector. -/
noncomputable def firstVal (o : Ops) (m : Ell ℂ) (r0 : Fin n → ℂ) (r k : Nat) (v : ℂ) : ℂ := o.acc v (o.mul (m.data r k) (ex r0 (m.indices r k))) (1 / 2)

theorem r1Ell_eq {m : Ell ℂ} (h : m.WF n) (r0 : Fin n → ℂ) :
    r1Ell o m r0 = .ok (fun i => (List.range m.nnzPerRow).foldl (fun v k => firstVal o m r0 i.val k v) 0) := by
  unfold r1Ell
  suffices H : ∀ c ≤ m.nnzPerRow, (List.range c).foldlM (fun r1 k =>
      (List.range m.rows).foldlM (fun r1 row => do
        let a ← m.dataAt row k
        let c ← m.idxAt row k
        let b ← getV r0 c
        let old ← getV r1 row
        setV r1 row (o.acc old (o.mul a b) (1 / 2))) r1) (fun _ : Fin n => (0 : ℂ)) =
      .ok (fun i : Fin n => (List.range c).foldl (fun v k => firstVal o m r0 i.val k v) 0) from H _ (le_refl _)
  intro c hc
  induction c with
  | zero => rfl
  | succ c ih =>
    rw [List.range_succ, List.foldlM_append, ih (by omega), Res.bind_ok, List.foldlM_cons]
    rw [h.rowsEq, rowsLoop' (fun r old => firstVal o m r0 r c old) _ (List.range n) List.nodup_range (fun r hr' => List.mem_range.1 hr')]
    · rw [Res.bind_ok]
      show Res.ok _ = Res.ok _
      congr 1
      funext i
      unfold onRows
      rw [if_pos (List.mem_range.2 i.isLt), List.foldl_append]
      rfl
    · intro y r hr _
      obtain ⟨h1, h2, h3⟩ := ell_reads h r0 hr (show c < m.nnzPerRow by omega)
      rw [h1, Res.bind_ok, h2, Res.bind_ok, h3, Res.bind_ok, getV_ok y r hr, Res.bind_ok, setV_ok _ _ _ hr]
      rfl

theorem r1Ell_follows (hg : o.Good u) {m : Ell ℂ} (h : m.WF n) {N : Nat} (hN : m.nnzPerRow ≤ N) (r0 : Fin n → ℂ) :
    ∃ w, r1Ell o m r0 = .ok w ∧ (nearRule (m.toMatrix n) ((ellNorm m).toMatrix n) (gam u N)).first r0 w := by
  have hu := hg.nonneg
  have hp : 1 ≤ 1 + u := by linarith
  refine ⟨_, r1Ell_eq h r0, ?_⟩
  · intro i
    have hhalf : ‖(1 / 2 : ℂ)‖ = 1 / 2 := by norm_num
    have := fold_near hu 8 (fun k v => firstVal o m r0 i.val k v) (fun k => m.data i.val k * ex r0 (m.indices i.val k) * (1 / 2))
      (fun k => ‖m.data i.val k‖ * ‖ex r0 (m.indices i.val k)‖ * (1 / 2)) (List.range m.nnzPerRow) (fun k _ v => by
        have a1 := hg.acc v (o.mul (m.data i.val k) (ex r0 (m.indices i.val k))) (1 / 2)
        have a2 := hg.mul (m.data i.val k) (ex r0 (m.indices i.val k))
        have hab : ‖m.data i.val k * ex r0 (m.indices i.val k)‖ = ‖m.data i.val k‖ * ‖ex r0 (m.indices i.val k)‖ := norm_mul _ _
        have hs : 0 ≤ ‖m.data i.val k‖ * ‖ex r0 (m.indices i.val k)‖ := by positivity
        generalize ‖m.data i.val k‖ * ‖ex r0 (m.indices i.val k)‖ = s at *
        rw [hhalf] at a1
        show ‖o.acc v (o.mul (m.data i.val k) (ex r0 (m.indices i.val k))) (1 / 2) - _‖ ≤ _
        generalize o.mul (m.data i.val k) (ex r0 (m.indices i.val k)) = q at *
        generalize m.data i.val k * ex r0 (m.indices i.val k) = q' at *
        have a3 : ‖q‖ ≤ (1 + u) ^ 4 * s := by
          have e : q = (q - q') + q' := by ring
          have := norm_add_le (q - q') q'
          rw [← e] at this
          linarith
        have a4 : ‖o.acc v q (1 / 2) - (v + q' * (1 / 2))‖ ≤ ‖o.acc v q (1 / 2) - (v + q * (1 / 2))‖ + ‖q - q'‖ * (1 / 2) := by
          have e : o.acc v q (1 / 2) - (v + q' * (1 / 2)) = (o.acc v q (1 / 2) - (v + q * (1 / 2))) + (q - q') * (1 / 2) := by ring
          rw [e]
          refine (norm_add_le _ _).trans ?_
          rw [norm_mul (q - q'), hhalf]
        have p5 : 0 ≤ (1 + u) ^ 5 - 1 := by linarith [one_le_pow₀ hp (n := 5)]
        have a5 := mul_le_mul_of_nonneg_left a3 p5
        have e : ((1 + u) ^ (8 + 1) - 1) * (s * (1 / 2)) = (((1 + u) ^ 5 - 1) * ((1 + u) ^ 4 * s)) * (1 / 2) + ((1 + u) ^ 4 - 1) * s * (1 / 2) := by ring
        rw [e]
        linarith)
      (fun k _ => by rw [norm_mul, norm_mul, hhalf]) 0
    have e1 : ((List.range m.nnzPerRow).map fun k => m.data i.val k * ex r0 (m.indices i.val k) * (1 / 2)).sum = ∑ j, m.toMatrix n i j / 2 * r0 j := by
      have := ellTerms h r0 i
      rw [range_list_sum] at this ⊢
      rw [← sum_mul, this, sum_mul]
      exact sum_congr rfl fun j _ => by ring
    have e2 : ((List.range m.nnzPerRow).map fun k => ‖m.data i.val k‖ * ‖ex r0 (m.indices i.val k)‖ * (1 / 2)).sum =
        (∑ j, (ellNorm m).toMatrix n i j * ‖r0 j‖) * (1 / 2) := by
      have := ellNorms h r0 i
      rw [range_list_sum] at this ⊢
      rw [← sum_mul, this]
    rw [e1, e2, List.length_range, norm_zero, mul_zero, zero_add, zero_add] at this
    have hS : 0 ≤ ∑ j, (ellNorm m).toMatrix n i j * ‖r0 j‖ := by
      rw [← ellNorms h]; exact list_norms_nonneg _ _ fun e => by positivity
    have g1 := mul_le_mul_of_nonneg_right (pow_sub_le_gam hu (show m.nnzPerRow + 8 ≤ N + 8 by omega)) hS
    have g0 := mul_nonneg (gam_nonneg hu N) hS
    exact this.trans (by linarith)

end Verif.Kpm.Float
