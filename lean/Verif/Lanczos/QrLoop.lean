import Verif.Lanczos.Qr
import Mathlib.Tactic.GCongr

/-!
# Deflation and the main loop of the tridiagonal eigenvalue solver
-/

namespace Verif.Lanczos

open Verif.Numeric
open Finset

/-- The number of elements of the subdiagonal that are not zero. -/
noncomputable def nz (n : Nat) (s : Nat → ℝ) : Nat := by
  classical exact ((range (n - 1)).filter (fun i => s i ≠ 0)).card

theorem nz_le (n : Nat) (s : Nat → ℝ) : nz n s ≤ n - 1 := by
  classical
  unfold nz
  refine (card_filter_le _ _).trans ?_
  rw [card_range]

theorem nz_mono {n : Nat} {s s' : Nat → ℝ} (h : ∀ i, i < n - 1 → s' i ≠ 0 → s i ≠ 0) : nz n s' ≤ nz n s := by
  classical
  unfold nz
  refine card_le_card fun i hi => ?_
  rw [mem_filter, mem_range] at hi ⊢
  exact ⟨hi.1, h i hi.1 hi.2⟩

theorem nz_update {n : Nat} {s : Nat → ℝ} {i : Nat} (hi : i < n - 1) (h : s i ≠ 0) : nz n (Function.update s i 0) + 1 ≤ nz n s := by
  classical
  unfold nz
  rw [Nat.add_one_le_iff]
  refine card_lt_card ⟨fun j hj => ?_, fun hsub => ?_⟩
  · rw [mem_filter, mem_range] at hj ⊢
    refine ⟨hj.1, fun h0 => hj.2 ?_⟩
    by_cases e : j = i
    · subst e; rw [Function.update_self]
    · rw [Function.update_of_ne e, h0]
  · have := hsub (mem_filter.2 ⟨mem_range.2 hi, h⟩)
    rw [mem_filter, Function.update_self] at this
    exact this.2 rfl

theorem sq_pair {n i : Nat} (hi : i + 1 < n) (x : Nat → ℝ) : x i ^ 2 + x (i + 1) ^ 2 ≤ sq n x := by
  unfold sq
  have hsub : ({i, i + 1} : Finset Nat) ⊆ range n := by
    intro j hj
    rw [mem_insert, mem_singleton] at hj
    rw [mem_range]; omega
  have := sum_le_sum_of_subset_of_nonneg (f := fun i => x i ^ 2) hsub (fun _ _ _ => sq_nonneg _)
  rw [sum_pair (by omega)] at this
  exact this

/-- Removing an element of the subdiagonal changes the matrix by a matrix whose norm is that element. -/
theorem form_update {n i : Nat} (hi : i + 1 < n) (d s : Nat → ℝ) (x : Nat → ℝ) :
    |form n d (Function.update s i 0) x - form n d s x| ≤ |s i| * sq n x := by
  have e : form n d (Function.update s i 0) x - form n d s x = -(s i * (2 * (x i * x (i + 1)))) := by
    have : (∑ j ∈ range (n - 1), Function.update s i 0 j * (x j * x (j + 1))) - ∑ j ∈ range (n - 1), s j * (x j * x (j + 1)) =
        -(s i * (x i * x (i + 1))) := by
      rw [← sum_sub_distrib, sum_eq_single i]
      · rw [Function.update_self]; ring
      · intro j _ hj
        rw [Function.update_of_ne hj, sub_self]
      · intro h; exact absurd (mem_range.2 (by omega)) h
    unfold form
    linear_combination 2 * this
  rw [e, abs_neg, abs_mul]
  refine mul_le_mul_of_nonneg_left ?_ (abs_nonneg _)
  refine le_trans ?_ (sq_pair hi x)
  rw [abs_le]
  constructor
  · nlinarith [sq_nonneg (x i + x (i + 1))]
  · nlinarith [sq_nonneg (x i - x (i + 1))]

theorem Sim.mono {n : Nat} {F F' : (Nat → ℝ) → ℝ} {δ δ' : ℝ} (h : Sim n F F' δ) (hd : δ ≤ δ') : Sim n F F' δ' := by
  obtain ⟨P, p1, p2, p4⟩ := h
  exact ⟨P, p1, p2, fun x => (p4 x).trans (mul_le_mul_of_nonneg_right hd (sq_nonneg' n x))⟩

/-- The unit vectors. -/
def unit (i : Nat) : Nat → ℝ := fun j => if j = i then 1 else 0

theorem sq_unit {n i : Nat} (hi : i < n) : sq n (unit i) = 1 := by
  unfold sq unit
  rw [sum_eq_single i]
  · simp
  · intro j _ hj; simp [hj]
  · intro h; exact absurd (mem_range.2 hi) h

theorem form_unit {n i : Nat} (hi : i < n) (d s : Nat → ℝ) : form n d s (unit i) = d i := by
  unfold form unit
  rw [sum_eq_single i, sum_eq_zero]
  · simp
  · intro j _
    by_cases h1 : j = i
    · subst h1; simp
    · simp [h1]
  · intro j _ hj; simp [hj]
  · intro h; exact absurd (mem_range.2 hi) h

/-- The diagonal is bounded by the norm. -/
theorem Sim.diag_le {n : Nat} {F : (Nat → ℝ) → ℝ} {B δ : ℝ} (hB : ∀ x, |F x| ≤ B * sq n x) {d s : Nat → ℝ}
    (h : Sim n F (form n d s) δ) {i : Nat} (hi : i < n) : |d i| ≤ B + δ := by
  obtain ⟨P, p1, _, p4⟩ := h
  have a := p4 (unit i)
  have b := hB (P (unit i))
  rw [p1, sq_unit hi, mul_one] at b
  rw [sq_unit hi, mul_one, form_unit hi] at a
  calc |d i| = |(d i - F (P (unit i))) + F (P (unit i))| := by rw [sub_add_cancel]
    _ ≤ _ := abs_add_le _ _
    _ ≤ δ + B := add_le_add a b
    _ = _ := add_comm _ _

/-- The error that is allowed while `k` elements of the subdiagonal are not zero. -/
noncomputable def err (n : Nat) (B eps : ℝ) (k : Nat) : ℝ := B * (1 + 2 * eps) ^ (n - 1 - k) - B

theorem err_mono {n : Nat} {B eps : ℝ} (hB : 0 ≤ B) (he : 0 ≤ eps) {k k' : Nat} (h : k' ≤ k) : err n B eps k ≤ err n B eps k' := by
  unfold err
  have : (1 + 2 * eps) ^ (n - 1 - k) ≤ (1 + 2 * eps) ^ (n - 1 - k') := pow_le_pow_right₀ (by linarith) (by omega)
  nlinarith

/-- What holds in the main loop. -/
structure Acc (n : Nat) (F : (Nat → ℝ) → ℝ) (B eps : ℝ) (diag sub : List ℝ) : Prop where
  dlen : diag.length = n
  slen : sub.length = n
  sim : Sim n F (form n (ofList diag) (ofList sub)) (err n B eps (nz n (ofList sub)))

theorem deflateAt_spec {n : Nat} {F : (Nat → ℝ) → ℝ} {B eps : ℝ} (hB0 : 0 ≤ B) (he : 0 ≤ eps) (hB : ∀ x, |F x| ≤ B * sq n x)
    {diag sub : List ℝ} (h : Acc n F B eps diag sub) {i : Nat} (hi : i + 1 < n) :
    ∃ sub', deflateAt eps diag sub i = .ok sub' ∧ Acc n F B eps diag sub' ∧
      (∀ j, ofList sub' j = ofList sub j ∨ ofList sub' j = 0) := by
  have hd := h.dlen
  have hl := h.slen
  unfold deflateAt
  rw [rd_ofList sub i (by omega), Res.bind_ok, rd_ofList diag i (by omega), Res.bind_ok, rd_ofList diag (i + 1) (by omega), Res.bind_ok]
  split_ifs with ht
  · rw [wr_ok _ _ _ (by omega)]
    refine ⟨_, rfl, ⟨hd, by rw [List.length_set]; exact hl, ?_⟩, fun j => ?_⟩
    · rw [ofList_set _ _ _ (by omega)]
      by_cases h0 : ofList sub i = 0
      · have : Function.update (ofList sub) i 0 = ofList sub := by
          rw [← h0, Function.update_eq_self]
        rw [this]
        exact h.sim
      · have hp := Sim.perturb (form_update hi (ofList diag) (ofList sub))
        refine (h.sim.trans hp).mono ?_
        have d0 := h.sim.diag_le hB (i := i) (by omega)
        have d1 := h.sim.diag_le hB (i := i + 1) hi
        have hz := nz_update (n := n) (i := i) (by omega) h0
        have hz' := nz_le n (ofList sub)
        refine le_trans ?_ (err_mono hB0 he (k := nz n (ofList sub) - 1) (by omega))
        have e1 : n - 1 - (nz n (ofList sub) - 1) = n - 1 - nz n (ofList sub) + 1 := by omega
        unfold err at *
        rw [e1, pow_succ]
        have : |ofList sub i| ≤ 2 * eps * (B * (1 + 2 * eps) ^ (n - 1 - nz n (ofList sub))) := by
          refine ht.le.trans ?_
          calc _ ≤ ((B + (B * (1 + 2 * eps) ^ (n - 1 - nz n (ofList sub)) - B)) + (B + (B * (1 + 2 * eps) ^ (n - 1 - nz n (ofList sub)) - B))) * eps :=
              mul_le_mul_of_nonneg_right (add_le_add d0 d1) he
            _ = _ := by ring
        nlinarith
    · rw [ofList_set _ _ _ (by omega)]
      by_cases e : j = i
      · subst e; right; rw [Function.update_self]
      · left; rw [Function.update_of_ne e]
  · exact ⟨sub, rfl, h, fun j => Or.inl rfl⟩

theorem deflate_spec {n : Nat} {F : (Nat → ℝ) → ℝ} {B eps : ℝ} (hB0 : 0 ≤ B) (he : 0 ≤ eps) (hB : ∀ x, |F x| ≤ B * sq n x)
    {diag : List ℝ} : ∀ (t start : Nat) (sub : List ℝ), Acc n F B eps diag sub → start + t < n →
    ∃ sub', (List.range' start t).foldlM (deflateAt eps diag) sub = .ok sub' ∧ Acc n F B eps diag sub' ∧
      (∀ j, ofList sub' j = ofList sub j ∨ ofList sub' j = 0) := by
  intro t
  induction t with
  | zero => intro start sub h _; exact ⟨sub, rfl, h, fun j => Or.inl rfl⟩
  | succ t ih =>
    intro start sub h hn
    obtain ⟨s1, e1, a1, z1⟩ := deflateAt_spec hB0 he hB h (i := start) (by omega)
    obtain ⟨s2, e2, a2, z2⟩ := ih (start + 1) s1 a1 (by omega)
    refine ⟨s2, by rw [List.range'_succ, List.foldlM_cons, e1, Res.bind_ok, e2], a2, fun j => ?_⟩
    rcases z2 j with h2 | h2
    · rcases z1 j with h1 | h1
      · left; rw [h2, h1]
      · right; rw [h2, h1]
    · right; exact h2

theorem lower_spec (sub : List ℝ) (e : Nat) (h : e ≤ sub.length) :
    ∃ e', lower sub e = .ok e' ∧ e' ≤ e ∧ (∀ j, e' ≤ j → j < e → ofList sub j = 0) ∧ (0 < e' → ofList sub (e' - 1) ≠ 0) := by
  induction e with
  | zero => exact ⟨0, rfl, Nat.le_refl _, fun j _ h => absurd h (by omega), fun h => absurd h (by omega)⟩
  | succ e ih =>
    unfold lower
    rw [rd_ofList sub e (by omega), Res.bind_ok]
    split_ifs with ht
    · obtain ⟨e', a, b, c, d⟩ := ih (by omega)
      refine ⟨e', a, by omega, fun j h1 h2 => ?_, d⟩
      by_cases hj : j = e
      · rw [hj, ht]
      · exact c j h1 (by omega)
    · exact ⟨e + 1, rfl, Nat.le_refl _, fun j h1 h2 => absurd h1 (by omega), fun _ => ht⟩

theorem findStart_spec (sub : List ℝ) (e : Nat) (h : e ≤ sub.length) :
    ∃ s, findStart sub e = .ok s ∧ s ≤ e ∧ (∀ j, s ≤ j → j < e → ofList sub j ≠ 0) ∧ (0 < s → ofList sub (s - 1) = 0) := by
  induction e with
  | zero => exact ⟨0, rfl, Nat.le_refl _, fun j _ h => absurd h (by omega), fun h => absurd h (by omega)⟩
  | succ e ih =>
    unfold findStart
    rw [rd_ofList sub e (by omega), Res.bind_ok]
    split_ifs with ht
    · obtain ⟨e', a, b, c, d⟩ := ih (by omega)
      refine ⟨e', a, by omega, fun j h1 h2 => ?_, d⟩
      by_cases hj : j = e
      · rw [hj]; exact ht
      · exact c j h1 (by omega)
    · exact ⟨e + 1, rfl, Nat.le_refl _, fun j h1 h2 => absurd h1 (by omega), fun _ => by simpa using ht⟩

/-- The form of a diagonal matrix. -/
def diagForm (n : Nat) (d : Nat → ℝ) (x : Nat → ℝ) : ℝ := ∑ i ∈ range n, d i * x i ^ 2

theorem form_diag {n : Nat} {d s : Nat → ℝ} (h : ∀ i, i + 1 < n → s i = 0) : form n d s = diagForm n d := by
  funext x
  unfold form diagForm
  rw [sum_eq_zero (s := range (n - 1)), mul_zero, add_zero]
  intro i hi
  rw [mem_range] at hi
  rw [h i (by omega), zero_mul]

theorem qrLoop_spec {n : Nat} {F : (Nat → ℝ) → ℝ} {B eps : ℝ} (hB0 : 0 ≤ B) (he : 0 ≤ eps) (hB : ∀ x, |F x| ≤ B * sq n x) :
    ∀ (left : Nat) (diag sub : List ℝ) (start stop : Nat), Acc n F B eps diag sub → (start < stop ∨ stop = 0) → (0 < stop → stop < n) →
      (∀ j, stop ≤ j → j + 1 < n → ofList sub j = 0) →
      (∃ ev, qrLoop eps left diag sub start stop = .ok ev ∧ ev.length = n ∧ Sim n F (diagForm n (ofList ev)) (err n B eps 0)) ∨
        qrLoop eps left diag sub start stop = .err .runtimeError := by
  have fin : ∀ (diag sub : List ℝ), Acc n F B eps diag sub → (∀ j, j + 1 < n → ofList sub j = 0) →
      diag.length = n ∧ Sim n F (diagForm n (ofList diag)) (err n B eps 0) := by
    intro diag sub h hz
    refine ⟨h.dlen, ?_⟩
    have := h.sim
    rw [form_diag hz] at this
    exact this.mono (err_mono hB0 he (Nat.zero_le _))
  intro left
  induction left with
  | zero =>
    intro diag sub start stop h hst hn hz
    unfold qrLoop
    by_cases h0 : stop = 0
    · rw [if_pos h0]
      left
      exact ⟨diag, rfl, fin diag sub h fun j hj => hz j (by omega) hj⟩
    · rw [if_neg h0]
      unfold deflate
      obtain ⟨s1, e1, a1, z1⟩ := deflate_spec hB0 he hB (stop - start) start sub h (by have := hn (by omega); omega)
      rw [e1, Res.bind_ok]
      obtain ⟨e, e2, l2, c2, d2⟩ := lower_spec s1 stop (by rw [a1.slen]; have := hn (by omega); omega)
      rw [e2, Res.bind_ok]
      by_cases h3 : e = 0
      · rw [if_pos h3]
        left
        refine ⟨diag, rfl, fin diag s1 a1 fun j hj => ?_⟩
        by_cases hj' : j < stop
        · exact c2 j (by omega) hj'
        · rcases z1 j with h1 | h1
          · rw [h1, hz j (by omega) hj]
          · exact h1
      · rw [if_neg h3]
        right; rfl
  | succ left ih =>
    intro diag sub start stop h hst hn hz
    unfold qrLoop
    by_cases h0 : stop = 0
    · rw [if_pos h0]
      left
      exact ⟨diag, rfl, fin diag sub h fun j hj => hz j (by omega) hj⟩
    · rw [if_neg h0]
      have hn' := hn (by omega)
      unfold deflate
      obtain ⟨s1, e1, a1, z1⟩ := deflate_spec hB0 he hB (stop - start) start sub h (by omega)
      rw [e1, Res.bind_ok]
      obtain ⟨e, e2, l2, c2, d2⟩ := lower_spec s1 stop (by rw [a1.slen]; omega)
      rw [e2, Res.bind_ok]
      have hz1 : ∀ j, e ≤ j → j + 1 < n → ofList s1 j = 0 := by
        intro j h1 hj
        by_cases hj' : j < stop
        · exact c2 j h1 hj'
        · rcases z1 j with h1 | h1
          · rw [h1, hz j (by omega) hj]
          · exact h1
      by_cases h3 : e = 0
      · rw [if_pos h3]
        left
        exact ⟨diag, rfl, fin diag s1 a1 fun j hj => hz1 j (by omega) hj⟩
      · rw [if_neg h3]
        obtain ⟨s, e4, l4, c4, d4⟩ := findStart_spec s1 (e - 1) (by rw [a1.slen]; omega)
        simp only
        rw [e4, Res.bind_ok]
        obtain ⟨r, e5, ld, ls, out, sim⟩ := qrStep_spec (n := n) a1.dlen a1.slen (start := s) (stop := e) (by omega) (by omega) d4
          (fun h => hz1 e (Nat.le_refl _) h)
        rw [e5, Res.bind_ok]
        have hnz : nz n (ofList r.2) ≤ nz n (ofList s1) := by
          refine nz_mono fun i hi hne => ?_
          by_cases hio : i < s ∨ e ≤ i
          · rw [out i hio] at hne; exact hne
          · by_cases hie : i = e - 1
            · rw [hie]; exact d2 (by omega)
            · exact c4 i (by omega) (by omega)
        refine ih r.1 r.2 s e ⟨ld, ls, ?_⟩ (Or.inl (by omega)) (fun _ => by omega) fun j h1 hj => ?_
        · have := a1.sim.trans sim
          rw [add_zero] at this
          exact this.mono (err_mono hB0 he hnz)
        · rw [out j (Or.inr h1), hz1 j h1 hj]

/-- The result of `tridiagonal_eigenvalues`: an exception, or the diagonal of a matrix that is the given one up to a
rotation and a small matrix. -/
theorem eigenvalues_spec {n : Nat} {B eps : ℝ} {alpha beta : List ℝ} (ha : alpha.length = n) (hb : beta.length = n)
    (hB0 : 0 ≤ B) (he : 0 ≤ eps) (hB : ∀ x, |form n (ofList alpha) (ofList beta) x| ≤ B * sq n x) :
    (∃ ev, tridiagonalEigenvalues eps alpha beta = .ok ev ∧ ev.length = n ∧
      Sim n (form n (ofList alpha) (ofList beta)) (diagForm n (ofList ev)) (err n B eps 0)) ∨
      tridiagonalEigenvalues eps alpha beta = .err .runtimeError := by
  unfold tridiagonalEigenvalues
  refine qrLoop_spec hB0 he hB _ alpha beta 0 (alpha.length - 1) ⟨ha, hb, ?_⟩ (by omega) (by omega) (fun j h1 h2 => by omega)
  refine (Sim.refl n _).mono ?_
  unfold err
  have : 1 ≤ (1 + 2 * eps) ^ (n - 1 - nz n (ofList beta)) := one_le_pow₀ (by linarith)
  nlinarith

end Verif.Lanczos
