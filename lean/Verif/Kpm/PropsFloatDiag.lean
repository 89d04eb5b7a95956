import Verif.Kpm.FloatDiagRun
import Verif.Kpm.PropsScaleRounded

/-!
# C100: local densities of states are accurate in floating-point arithmetic
-/

namespace Verif.Kpm.Float

open Verif.Numeric Finset Polynomial
open Verif.Hopping (Csr)
open Verif.Hamiltonian (Sorted coeff)

/-! ## The collector -/

section scalar

variable {R : Rounding} {δ E p : ℝ}

theorem near_double (hδ4 : (1 + R.unit) ^ 4 - 1 ≤ δ) {a : ℂ} {T : ℝ} (h : ‖a‖ ≤ T) : ‖R.mul 2 a - 2 * a‖ ≤ δ * (2 * T) := by
  have h1 := R.mul_near 2 a
  rw [Complex.norm_ofNat] at h1
  have h0 := pow_sub_nonneg R.unit_nonneg 4
  exact h1.trans ((mul_le_mul_of_nonneg_right hδ4 (by positivity)).trans (mul_le_mul_of_nonneg_left (by linarith) (by linarith)))

theorem near_sub (hδ : R.unit ≤ δ) {a b : ℂ} {T : ℝ} (h : ‖a - b‖ ≤ T) : ‖R.sub a b - (a - b)‖ ≤ δ * T := by
  have h1 : ‖R.sub a b - (a - b)‖ ≤ R.unit * ‖a - b‖ := R.parts (a - b)
  have := R.unit_nonneg
  have h2 := norm_nonneg (a - b)
  exact h1.trans ((mul_le_mul_of_nonneg_right hδ h2).trans (mul_le_mul_of_nonneg_left h (by linarith)))

/-- The error of an even moment. -/
theorem even_error (hδ4 : (1 + R.unit) ^ 4 - 1 ≤ δ) (hδ : R.unit ≤ δ) (hδ1 : δ ≤ 1) (hE : 0 ≤ E) (hE1 : E ≤ 1) (hp : 0 ≤ p) {m2 m0 X Z : ℂ}
    (h2 : ‖m2 - X‖ ≤ (3 * E + 4 * δ) * p) (h0 : ‖m0 - Z‖ ≤ 3 / 2 * δ * p) (hX : ‖X‖ ≤ p) (hZ : ‖Z‖ ≤ p / 2) :
    ‖R.mul 2 (R.sub m2 m0) - 2 * (X - Z)‖ ≤ (7 * E + 72 * δ) * p := by
  have hu := R.unit_nonneg
  have hd0 : 0 ≤ δ := hu.trans hδ
  have hEp : E * p ≤ p := by nlinarith
  have hdp : δ * p ≤ p := by nlinarith
  have n1 : ‖m2 - m0‖ ≤ 10 * p := by
    have e : m2 - m0 = (m2 - X) - (m0 - Z) + X - Z := by ring
    rw [e]
    have a1 := norm_sub_le ((m2 - X) - (m0 - Z) + X) Z
    have a2 := norm_add_le ((m2 - X) - (m0 - Z)) X
    have a3 := norm_sub_le (m2 - X) (m0 - Z)
    linarith
  have n2 := near_sub hδ n1
  set a := R.sub m2 m0
  have n3 : ‖a - (X - Z)‖ ≤ (3 * E + 31 / 2 * δ) * p := by
    have e : a - (X - Z) = (a - (m2 - m0)) + ((m2 - X) - (m0 - Z)) := by ring
    rw [e]
    have a1 := norm_add_le (a - (m2 - m0)) ((m2 - X) - (m0 - Z))
    have a3 := norm_sub_le (m2 - X) (m0 - Z)
    linarith
  have n4 : ‖a‖ ≤ 20 * p := by
    have e : a = (a - (X - Z)) + (X - Z) := by ring
    rw [e]
    have a1 := norm_add_le (a - (X - Z)) (X - Z)
    have a2 := norm_sub_le X Z
    linarith
  have n5 := near_double hδ4 n4
  have e : R.mul 2 a - 2 * (X - Z) = (R.mul 2 a - 2 * a) + 2 * (a - (X - Z)) := by ring
  rw [e]
  have a1 := norm_add_le (R.mul 2 a - 2 * a) (2 * (a - (X - Z)))
  rw [norm_mul, Complex.norm_ofNat] at a1
  have : 0 ≤ E * p := mul_nonneg hE hp
  have : 0 ≤ δ * p := mul_nonneg hd0 hp
  linarith

/-- The error of an odd moment. -/
theorem odd_error (hδ4 : (1 + R.unit) ^ 4 - 1 ≤ δ) (hδ : R.unit ≤ δ) (hδ1 : δ ≤ 1) (hE : 0 ≤ E) (hE1 : E ≤ 1) (hp : 0 ≤ p) {m3 m1 Y Z : ℂ}
    (h3 : ‖m3 - Y‖ ≤ (3 * E + 4 * δ) * p) (h1 : ‖m1 - Z‖ ≤ (2 * δ + E) * p) (hY : ‖Y‖ ≤ p) (hZ : ‖Z‖ ≤ p) :
    ‖R.sub (R.mul 2 m3) m1 - (2 * Y - Z)‖ ≤ (7 * E + 72 * δ) * p := by
  have hu := R.unit_nonneg
  have hd0 : 0 ≤ δ := hu.trans hδ
  have hEp : E * p ≤ p := by nlinarith
  have hdp : δ * p ≤ p := by nlinarith
  have hE0 : 0 ≤ E * p := mul_nonneg hE hp
  have hd0p : 0 ≤ δ * p := mul_nonneg hd0 hp
  have n1 : ‖m3‖ ≤ 8 * p := by
    have e : m3 = (m3 - Y) + Y := by ring
    rw [e]
    have := norm_add_le (m3 - Y) Y
    linarith
  have n2 := near_double hδ4 n1
  set b := R.mul 2 m3
  have n3 : ‖b - 2 * Y‖ ≤ (6 * E + 24 * δ) * p := by
    have e : b - 2 * Y = (b - 2 * m3) + 2 * (m3 - Y) := by ring
    rw [e]
    have a1 := norm_add_le (b - 2 * m3) (2 * (m3 - Y))
    rw [norm_mul, Complex.norm_ofNat] at a1
    linarith
  have n4 : ‖b - m1‖ ≤ 36 * p := by
    have e : b - m1 = (b - 2 * Y) - (m1 - Z) + (2 * Y - Z) := by ring
    rw [e]
    have a1 := norm_add_le ((b - 2 * Y) - (m1 - Z)) (2 * Y - Z)
    have a2 := norm_sub_le (b - 2 * Y) (m1 - Z)
    have a3 := norm_sub_le (2 * Y) Z
    rw [norm_mul, Complex.norm_ofNat] at a3
    linarith
  have n5 := near_sub hδ n4
  have e : R.sub b m1 - (2 * Y - Z) = (R.sub b m1 - (b - m1)) + ((b - 2 * Y) - (m1 - Z)) := by ring
  rw [e]
  have a1 := norm_add_le (R.sub b m1 - (b - m1)) ((b - 2 * Y) - (m1 - Z))
  have a2 := norm_sub_le (b - 2 * Y) (m1 - Z)
  linarith

end scalar

variable {n : Nat}

theorem inner_sub_le (x y a b : Fin n → ℂ) : ‖Kpm.inner x y - Kpm.inner a b‖ ≤ nrm (x - a) * nrm y + nrm a * nrm (y - b) := by
  have e : Kpm.inner x y - Kpm.inner a b = Kpm.inner (x - a) y + Kpm.inner a (y - b) := by
    unfold Kpm.inner
    rw [← sum_sub_distrib, ← sum_add_distrib]
    refine sum_congr rfl fun i _ => ?_
    simp only [Pi.sub_apply, star_sub]
    ring
  rw [e]
  exact (norm_add_le _ _).trans (add_le_add (norm_inner_le _ _) (norm_inner_le _ _))

/-- **C100**.  Diagonal moments in floating-point arithmetic, for every kernel, every algorithm and every order of summation: moment `k` differs from `⟨r, T_k(H) r⟩` at most
by `(7/4 (γ + ν) (R + 1) (k + 2) (k + 4) + 72 δ) |r|^2`.  The first part is the error of the recursion as in C97; `δ = (1 + u)^K - 1` is the error of the scalar products, where
`K` is the number of additions a product goes through, plus five per slice. -/
theorem C100_moments (R : Rounding) (fma : Bool) {ord : Orders n} {F : Nat → Nat} {e : Nat} (hord : ord.Valid F e) (f : Kernels n) {m : Raw ℂ} (h : m.WF) (hr : m.rows = n)
    (hc : m.cols = n) (hv : f.Valid m) {N : Nat} (hN : maxNnzPerRow m = .ok N) {H : Matrix (Fin n) (Fin n) ℂ} {B : Matrix (Fin n) (Fin n) ℝ} {ρ ν : ℝ} (hT : Tame H B ρ)
    (hH : Holds m H B ν) (map : SliceMap) (cfg : AlgorithmConfig) (r : Fin n → ℂ) (hS : cfg.optimalSize = true ∨ cfg.interleaved = true → Slices map.data B)
    (hz : cfg.optimalSize = true → ZeroAbove map.data map.src r ∧ map.src ≤ map.dest) (moments : List ℂ) {L : Nat} (hL : 1 ≤ L) (hlen : moments.length = 2 * L)
    (hodd : cfg.interleaved = true → L % 2 = 1) (hsmall : (gam R.unit N + ν) * (ρ + 1) * (L * (L + 1)) ≤ 1) {K : Nat}
    (hK : F n + (e + 5) * (map.data.length + 1) ≤ K) (hδ : (1 + R.unit) ^ K - 1 ≤ 1) :
    ∃ M res, f.diagMat R fma ord m = .ok M ∧ withDiagonal R fma ord M map cfg moments r = .ok res ∧ res.length = moments.length ∧
      ∀ k (hk : k < res.length), ‖res[k] - diagMoment (1 / 2 : ℂ) H r k‖ ≤
        (7 / 4 * ((gam R.unit N + ν) * (ρ + 1)) * ((k + 2) * (k + 4)) + 72 * ((1 + R.unit) ^ K - 1)) * nrm r ^ 2 := by
  have hu := R.unit_nonneg
  obtain ⟨M0, eM0, hM0⟩ := f.follows (R.ops_good fma) h hr hc hv hN
  have hγ := gam_nonneg hu N
  have hM1 := nearRule_mono hγ hH.nonneg hH.size hH.near hM0
  have hγν : 0 ≤ gam R.unit N + ν := add_nonneg hγ hH.nonneg
  obtain ⟨M, eM, hM⟩ := f.diagFollows R fma hord h hr hc hv eM0 hM1
  obtain ⟨w, res, d0, m1, eres, hrl, hw, n0, n1, hmk⟩ := withDiagonal_rows R fma hord (nearRule_local hγν hT.size) hM hS hz (moments := moments) (by omega) (by omega)
    (fun hi => by have := hodd hi; omega) hK
  rw [show moments.length / 2 = L by omega] at hw
  refine ⟨M, res, eM, eres, hrl, fun k hk => ?_⟩
  have hρ := hT.nonneg
  set γ := (gam R.unit N + ν) * (ρ + 1) with hγd
  have hγ0 : 0 ≤ γ := mul_nonneg hγν (by linarith)
  set δ := (1 + R.unit) ^ K - 1 with hδd
  have hK5 : 5 ≤ K := by
    have := Nat.le_mul_of_pos_right (e + 5) (Nat.succ_pos map.data.length)
    simp only [Nat.succ_eq_add_one] at this
    omega
  have hδ4 : (1 + R.unit) ^ 4 - 1 ≤ δ := by
    have := pow_le_pow_right₀ (show 1 ≤ 1 + R.unit by linarith) (show 4 ≤ K by omega)
    linarith
  have hδu : R.unit ≤ δ := (le_mul4 hu).trans hδ4
  have hδ0 : 0 ≤ δ := hu.trans hδu
  have hr0 := nrm_nonneg r
  have herr : ∀ a b : Nat, a ≤ b → b ≤ L → nrm (w a - chebVec H r a) ≤ γ * (b * (b + 1)) * nrm r := by
    intro a b hab hb
    have h1 := hT.run_error hγν hw (by omega) (by push_cast; rw [add_sub_cancel_right]; exact hsmall) a (by omega)
    refine h1.trans (mul_le_mul_of_nonneg_right (mul_le_mul_of_nonneg_left ?_ hγ0) hr0)
    have : (a : ℝ) ≤ b := by exact_mod_cast hab
    have : (0 : ℝ) ≤ a := by positivity
    nlinarith
  have hsm : ∀ b : Nat, b ≤ L → γ * (b * (b + 1)) ≤ 1 := by
    intro b hb
    refine le_trans (mul_le_mul_of_nonneg_left ?_ hγ0) hsmall
    have : (b : ℝ) ≤ L := by exact_mod_cast hb
    have : (0 : ℝ) ≤ b := by positivity
    nlinarith
  have hcheb := hT.nrm_cheb r
  have hwn : ∀ a : Nat, a ≤ L → nrm (w a) ≤ 2 * nrm r := by
    intro a ha
    have e1 : w a = (w a - chebVec H r a) + chebVec H r a := by abel
    rw [e1]
    have h1 := nrm_add (w a - chebVec H r a) (chebVec H r a)
    have h2 := herr a a (le_refl _) ha
    have h3 := mul_le_mul_of_nonneg_right (hsm a ha) hr0
    have h4 := hcheb a
    linarith
  -- scalar products of the run
  have dot : ∀ (a b c : Nat) (v : ℂ), a ≤ c → b ≤ c → c ≤ L → DotNear δ (w a) (w b) v →
      ‖v - Kpm.inner (chebVec H r a) (chebVec H r b)‖ ≤ (3 * (γ * (c * (c + 1))) + 4 * δ) * nrm r ^ 2 := by
    intro a b c v ha hb hcL hv'
    have h1 := inner_sub_le (w a) (w b) (chebVec H r a) (chebVec H r b)
    have h2 := herr a c ha hcL
    have h3 := herr b c hb hcL
    have h4 := hwn a (by omega)
    have h5 := hwn b (by omega)
    have h6 := hcheb a
    have p1 : nrm (w a - chebVec H r a) * nrm (w b) ≤ (γ * (c * (c + 1)) * nrm r) * (2 * nrm r) :=
      mul_le_mul h2 h5 (nrm_nonneg _) (by positivity)
    have p2 : nrm (chebVec H r a) * nrm (w b - chebVec H r b) ≤ nrm r * (γ * (c * (c + 1)) * nrm r) :=
      mul_le_mul h6 h3 (nrm_nonneg _) hr0
    have p3 : nrm (w a) * nrm (w b) ≤ (2 * nrm r) * (2 * nrm r) := mul_le_mul h4 h5 (nrm_nonneg _) (by positivity)
    have h7 : ‖v - Kpm.inner (w a) (w b)‖ ≤ δ * (nrm (w a) * nrm (w b)) := hv'
    have p4 := mul_le_mul_of_nonneg_left p3 hδ0
    have h8 := norm_add_le (v - Kpm.inner (w a) (w b)) (Kpm.inner (w a) (w b) - Kpm.inner (chebVec H r a) (chebVec H r b))
    rw [sub_add_sub_cancel] at h8
    linarith
  have hself : ∀ a b : Nat, ‖Kpm.inner (chebVec H r a) (chebVec H r b)‖ ≤ nrm r ^ 2 := by
    intro a b
    refine (norm_inner_le _ _).trans ?_
    rw [sq]
    exact mul_le_mul (hcheb a) (hcheb b) (nrm_nonneg _) hr0
  have hp : 0 ≤ nrm r ^ 2 := by positivity
  have hw0 : w 0 = r := hw.1
  have c0 : chebVec H r 0 = r := chebVec_zero H r
  -- the zeroth moment
  have z0 : ‖R.mul d0 (1 / 2) - (1 / 2 : ℂ) * Kpm.inner r r‖ ≤ 3 / 2 * δ * nrm r ^ 2 := by
    have h1 : ‖d0 - Kpm.inner r r‖ ≤ δ * (nrm r * nrm r) := n0
    have h2 := R.mul_near d0 (1 / 2)
    have e2 : ‖(1 / 2 : ℂ)‖ = 1 / 2 := by norm_num
    rw [e2] at h2
    have h3 : ‖Kpm.inner r r‖ ≤ nrm r ^ 2 := by have := hself 0 0; rwa [c0] at this
    have h4 : ‖d0‖ ≤ 2 * nrm r ^ 2 := by
      have e3 : d0 = (d0 - Kpm.inner r r) + Kpm.inner r r := by ring
      rw [e3]
      have := norm_add_le (d0 - Kpm.inner r r) (Kpm.inner r r)
      have := mul_le_mul_of_nonneg_right hδ hp
      linarith
    have e4 : R.mul d0 (1 / 2) - (1 / 2 : ℂ) * Kpm.inner r r = (R.mul d0 (1 / 2) - d0 * (1 / 2)) + (1 / 2) * (d0 - Kpm.inner r r) := by ring
    rw [e4]
    have h5 := norm_add_le (R.mul d0 (1 / 2) - d0 * (1 / 2)) ((1 / 2) * (d0 - Kpm.inner r r))
    rw [norm_mul, e2] at h5
    have h6 := mul_le_mul_of_nonneg_right hδ4 (show 0 ≤ ‖d0‖ * (1 / 2) by positivity)
    have h7 : δ * (‖d0‖ * (1 / 2)) ≤ δ * nrm r ^ 2 := mul_le_mul_of_nonneg_left (by linarith) hδ0
    linarith
  -- the first moment
  have z1 : ‖m1 - Kpm.inner (chebVec H r 1) r‖ ≤ (2 * δ + γ * (1 * (1 + 1))) * nrm r ^ 2 := by
    have h1 : ‖m1 - Kpm.inner (w 1) r‖ ≤ δ * (nrm (w 1) * nrm r) := n1
    have h2 := inner_sub_le (w 1) r (chebVec H r 1) r
    rw [sub_self] at h2
    have h3 := herr 1 1 (le_refl _) hL
    have h4 := hwn 1 hL
    have h0 : nrm (0 : Fin n → ℂ) = 0 := by unfold nrm; simp
    rw [h0, mul_zero, add_zero] at h2
    have h5 := norm_add_le (m1 - Kpm.inner (w 1) r) (Kpm.inner (w 1) r - Kpm.inner (chebVec H r 1) r)
    rw [sub_add_sub_cancel] at h5
    have h6 := mul_le_mul_of_nonneg_right h3 hr0
    have h7 := mul_le_mul_of_nonneg_left (mul_le_mul_of_nonneg_right h4 hr0) hδ0
    push_cast at h6
    linarith
  -- all moments
  have big : ∀ c : Nat, 2 * c ≤ k + 2 → (7 * (γ * (c * (c + 1))) + 72 * δ) * nrm r ^ 2 ≤ (7 / 4 * γ * ((k + 2) * (k + 4)) + 72 * δ) * nrm r ^ 2 := by
    intro c hck
    refine mul_le_mul_of_nonneg_right ?_ hp
    have : 2 * (c : ℝ) ≤ k + 2 := by exact_mod_cast hck
    have : (0 : ℝ) ≤ c := by positivity
    have : (c : ℝ) * (c + 1) ≤ (k + 2) * (k + 4) / 4 := by nlinarith
    linarith [mul_le_mul_of_nonneg_left this hγ0]
  have hm := hmk k hk
  unfold MomentOf at hm
  unfold diagMoment
  by_cases k0 : k = 0
  · subst k0
    rw [if_pos rfl] at hm
    rw [hm, if_pos rfl, c0, smul_eq_mul]
    refine z0.trans ((mul_le_mul_of_nonneg_right ?_ hp).trans (big 0 (by omega)))
    push_cast
    linarith
  rw [if_neg k0] at hm ⊢
  by_cases k1 : k = 1
  · subst k1
    rw [if_pos rfl] at hm
    rw [hm]
    have e1 : Kpm.inner (chebVec H r 1) r = Kpm.inner r (chebVec H r (1 : Nat)) := by
      rw [chebVec_one, inner_act H hT.hermitian]
    rw [← e1]
    refine z1.trans ((mul_le_mul_of_nonneg_right ?_ hp).trans (big 1 (by omega)))
    push_cast
    linarith
  rw [if_neg k1] at hm
  rcases Nat.mod_two_eq_zero_or_one k with hk2 | hk2
  · rw [if_pos hk2] at hm
    obtain ⟨m2, hm2, ev⟩ := hm
    rw [ev]
    have e1 := doubling_even H hT.hermitian r (1 / 2 : ℂ) (by norm_num) (k / 2)
    rw [show 2 * (k / 2) = k by omega, smul_eq_mul] at e1
    rw [← e1]
    have hc2 : k / 2 ≤ L := by omega
    refine (even_error hδ4 hδu hδ (by positivity) (hsm (k / 2) hc2) hp (dot _ _ (k / 2) m2 (le_refl _) (le_refl _) hc2 hm2) z0 (hself _ _) ?_).trans (big (k / 2) (by omega))
    rw [norm_mul]
    have h3 : ‖Kpm.inner r r‖ ≤ nrm r ^ 2 := by have := hself 0 0; rwa [c0] at this
    have e2 : ‖(1 / 2 : ℂ)‖ = 1 / 2 := by norm_num
    rw [e2]
    linarith
  · rw [if_neg (by omega)] at hm
    obtain ⟨m3, hm3, ev⟩ := hm
    rw [ev]
    have e1 := doubling_odd H hT.hermitian r (k / 2)
    rw [show 2 * (k / 2) + 1 = k by omega] at e1
    rw [← e1]
    have hc2 : k / 2 + 1 ≤ L := by omega
    have hz1 : ‖m1 - Kpm.inner (chebVec H r 1) r‖ ≤ (2 * δ + γ * (((k / 2 + 1 : Nat) : ℝ) * (((k / 2 + 1 : Nat) : ℝ) + 1))) * nrm r ^ 2 := by
      refine z1.trans (mul_le_mul_of_nonneg_right ?_ hp)
      have : (1 : ℝ) ≤ ((k / 2 + 1 : Nat) : ℝ) := by exact_mod_cast Nat.le_add_left 1 (k / 2)
      have : (1 : ℝ) * (1 + 1) ≤ ((k / 2 + 1 : Nat) : ℝ) * (((k / 2 + 1 : Nat) : ℝ) + 1) := by nlinarith
      linarith [mul_le_mul_of_nonneg_left this hγ0]
    refine (odd_error hδ4 hδu hδ (by positivity) (hsm (k / 2 + 1) hc2) hp (dot _ _ (k / 2 + 1) m3 (le_refl _) (by omega) hc2 hm3) hz1 (hself _ _) ?_).trans
      (big (k / 2 + 1) (by omega))
    have := hself 1 0
    rwa [c0] at this

/-! ## Local density of states -/

variable {K : Type} [Zero K] [Add K] [Sub K] [Neg K] [Mul K] [DecidableEq K] {val : K → ℂ}

/-- One vector of `Core::ldos`, Core.cpp:57-72 with default/Compute.cpp:24-44, 79-80, in floating-point arithmetic: the moments of the `k`-th site before damping. With one
site it is also the branch of `Core::greens_vector` for the column that is the row, Core.cpp:102-116 with Compute.cpp:46-50. The optimized matrix is computed with the operations
of the scalar type `K`. -/
noncomputable def roundedLdos (R : Rounding) (fma : Bool) (ord : Orders n) (f : Kernels n) (val : K → ℂ) (cfg : AlgorithmConfig) (h : Csr K) (invA b : K) (num : Nat)
    (idx : List Nat) (junk : Nat → ℂ) (k : Nat) : Res (List ℂ) := do
  let o ← optimizeFor cfg.reorder h invA b idx idx
  let M ← f.diagMat R fma ord (ofRows n (mapVal val o.h2))
  let r0 ← unitStart n o.src k
  withDiagonal R fma ord M o.slices cfg ((List.range num).map junk) r0

variable {h : Csr K} {H : Matrix (Fin n) (Fin n) ℂ} {S : Matrix (Fin n) (Fin n) ℝ} {ε η c : ℝ}

/-- **C100** (the local density of states).  The moments of each of several sites from a stored Hamiltonian, in floating-point arithmetic throughout: moment `k` differs from
the diagonal element of `T_k((H - c) / a)` (half of it for `k = 0`) at most by `7/4 (γ + ν) (R + 1) (k + 2) (k + 4) + 72 δ`, with `γ`, `ν` and `R` as in C99. -/
theorem C100_ldos (R : Rounding) (fma : Bool) (A : Arith K val R.unit) {ord : Orders n} {F : Nat → Nat} {e : Nat} (hord : ord.Valid F e) (f : Kernels n) (hf : f.Formed h)
    (hs : Stores val h H S ε) (hH : H.IsHermitian) {W : ℝ} (hW : ∀ i, ∑ j, S i j ≤ W) (hW' : ∀ j, ∑ i, S i j ≤ W) {a : ℝ} (ha : 0 < a)
    (hspec : ∀ j, |hH.eigenvalues j - c| ≤ a) (hη : 0 ≤ η) {invA b : K} (hinv : ‖val invA - (2 / a : ℝ)‖ ≤ η * (2 / a)) (hb : val b = c) {N : Nat}
    (hN : ∀ i < n, (h.getD i []).length ≤ N) (cfg : AlgorithmConfig) (row : Fin n) (more : List (Fin n)) (hconn : cfg.reorder = true → ∀ i : Fin n, Reach h row i) {L : Nat}
    (hL : 1 ≤ L) (hodd : cfg.interleaved = true → L % 2 = 1) (junk : Nat → ℂ)
    (hsmall : (gam R.unit (N + 1) + scaleError R.unit ε η) * ((1 + scaleError R.unit ε η) * (2 / a * (W + |c|)) + 1) * (L * (L + 1)) ≤ 1) {D : Nat}
    (hD : F n + (e + 5) * (n + 2) ≤ D) (hδ : (1 + R.unit) ^ D - 1 ≤ 1) (i : Nat) (hi : i < (row :: more).length) :
    ∃ res, roundedLdos R fma ord f val cfg h invA b (2 * L) ((row :: more).map (·.val)) junk i = .ok res ∧ res.length = 2 * L ∧
      ∀ k (hk : k < res.length),
        ‖res[k] - (if k = 0 then 1 / 2 else 1) * (aeval (scaledBy H a c) (Chebyshev.T ℂ k)) (row :: more)[i] (row :: more)[i]‖
          ≤ 7 / 4 * ((gam R.unit (N + 1) + scaleError R.unit ε η) * ((1 + scaleError R.unit ε η) * (2 / a * (W + |c|)) + 1)) * ((k + 2) * (k + 4))
            + 72 * ((1 + R.unit) ^ D - 1) := by
  obtain ⟨o, o', σ, eo, hr, P⟩ := optimized_twin A hs hη (t := 2 / a) (by positivity) hinv hb cfg.reorder row more (row :: more) (by simp) hconn
  have hν := scaleError_nonneg A.nonneg hs.nonneg hη
  generalize scaleError R.unit ε η = ν at *
  obtain ⟨hwf, hrows, hcl, N', eN, hNN, hvalid⟩ := twin_raw f hf hs hr P hN
  have hT := twin_tame hs hν hH hW hW' ha hspec P
  have hHolds := twin_holds hs hν hr ha P
  set site := (row :: more)[i] with hsite
  have hst : unitStart n o.src i = .ok (moved σ (unitVec site) : Fin n → ℂ) := by
    rw [hr.src, P.src_eq, unitStart_eq, List.getElem?_eq_getElem hi]
  have hunit : (moved σ (unitVec site) : Fin n → ℂ) = fun i => if i = σ site then 1 else 0 := by
    funext i
    unfold moved unitVec
    simp only [Equiv.symm_apply_eq]
  have hS : cfg.optimalSize = true ∨ cfg.interleaved = true → Slices o.slices.data (fun i j : Fin n => (1 + ν) * (coeff o'.h2 i j).2.1) := by
    intro hc
    have hS := P.slices (reorder_cases cfg hc)
    rw [← hr.slices] at hS
    have key : ∀ i j : Fin n, (1 + ν) * (coeff o'.h2 i j).2.1 ≠ 0 → matrixOf n o'.h2 i j ≠ 0 := by
      intro i j hne h0
      apply hne
      have h0' : coeff o'.h2 i j = 0 := h0
      rw [h0']
      simp
    exact ⟨hS.nonempty, hS.mono, hS.last, fun i j k hne => hS.rows i j k (key i j hne), fun i j k hne => hS.cols i j k (key i j hne)⟩
  have hz : cfg.optimalSize = true → ZeroAbove o.slices.data o.slices.src (moved σ (unitVec site) : Fin n → ℂ) ∧ o.slices.src ≤ o.slices.dest := by
    intro hc
    have h1 := P.srcBelow (reorder_cases cfg (Or.inl hc)) site (List.getElem_mem hi)
    have h2 := P.srcDest (reorder_cases cfg (Or.inl hc)) rfl
    rw [← hr.slices] at h1 h2
    exact ⟨zeroAbove_moved h1, h2.le⟩
  have hγ := gam_mono A.nonneg hNN
  have hρ := hT.nonneg
  have hle : (gam R.unit N' + ν) * ((1 + ν) * (2 / a * (W + |c|)) + 1) ≤ (gam R.unit (N + 1) + ν) * ((1 + ν) * (2 / a * (W + |c|)) + 1) :=
    mul_le_mul_of_nonneg_right (by linarith) (by linarith)
  have hfew : o.slices.data.length ≤ n + 1 := by rw [hr.slices]; exact P.few
  have hD' : F n + (e + 5) * (o.slices.data.length + 1) ≤ D := le_trans (Nat.add_le_add_left (Nat.mul_le_mul_left _ (by omega)) _) hD
  obtain ⟨M, res, eM, eres, hrl, hmk⟩ := C100_moments R fma hord f hwf hrows hcl hvalid eN hT hHolds o.slices cfg (moved σ (unitVec site)) hS hz
    ((List.range (2 * L)).map junk) hL (by simp) hodd ((mul_le_mul_of_nonneg_right hle (by positivity)).trans hsmall) hD' hδ
  refine ⟨res, ?_, by simpa using hrl, fun k hk => ?_⟩
  · unfold roundedLdos
    rw [eo, Res.bind_ok, eM, Res.bind_ok, hst, Res.bind_ok, eres]
  · have h5 := hmk k hk
    rw [hunit, nrm_unit, one_pow, mul_one] at h5
    refine le_trans ?_ (add_le_add_left (mul_le_mul_of_nonneg_right (mul_le_mul_of_nonneg_left hle (by norm_num)) (by positivity)) _)
    refine le_trans (le_of_eq ?_) h5
    congr 2
    have e1 : Kpm.inner (fun i => if i = σ site then (1 : ℂ) else 0) (chebVec ((scaledBy H a c).submatrix σ.symm σ.symm) (fun i => if i = σ site then 1 else 0) k) =
        (aeval (scaledBy H a c) (Chebyshev.T ℂ k)) site site := by
      unfold Kpm.inner
      simp only [apply_ite star, star_one, star_zero, ite_mul, one_mul, zero_mul, Finset.sum_ite_eq', mem_univ, if_true]
      rw [chebVec_unit, aeval_submatrix, Matrix.submatrix_apply, Equiv.symm_apply_apply]
    unfold diagMoment
    by_cases h0 : k = 0
    · subst h0
      rw [if_pos rfl, if_pos rfl, smul_eq_mul, e1]
    · rw [if_neg h0, if_neg h0, one_mul, e1]

/-! ## The function -/

theorem sum_squares (num : Nat) : ∑ k ∈ range num, (((k : ℝ) + 2) * (k + 4)) = num * (2 * num ^ 2 + 15 * num + 31) / 6 := by
  induction num with
  | zero => simp
  | succ c ih => rw [sum_range_succ, ih]; push_cast; ring

/-- **C100** (the function).  Moments with such errors, damped with coefficients of at most 1 and summed up, give a density whose error is at most
`2 / (π a √(1 - E²)) (7/4 γ num (2 num² + 15 num + 31) / 6 + 72 δ num)`. -/
theorem C100_density (s : Scale ℝ) (g : Nat → Nat → ℝ) (a b : List ℂ) (hlen : a.length = b.length) {γ δ : ℝ} (hg : ∀ k, k < a.length → |g a.length k| ≤ 1)
    (hab : ∀ k (h1 : k < a.length) (h2 : k < b.length), ‖a[k] - b[k]‖ ≤ 7 / 4 * γ * ((k + 2) * (k + 4)) + 72 * δ) {energy : ℝ}
    (hE : -1 < s.apply energy ∧ s.apply energy < 1) :
    ∃ x y, spectralDensity s (damp g a) energy = .ok x ∧ spectralDensity s (damp g b) energy = .ok y ∧
      |x - y| ≤ 2 / Real.pi / |s.a| / Real.sqrt (1 - s.apply energy * s.apply energy) *
        (7 / 4 * γ * (a.length * (2 * a.length ^ 2 + 15 * a.length + 31) / 6) + 72 * δ * a.length) := by
  unfold spectralDensity
  simp only [if_pos hE]
  refine ⟨_, _, rfl, rfl, ?_⟩
  unfold densityAt
  simp only
  rw [← mul_sub, abs_mul]
  have hpre : |2 / Real.pi / s.a / Real.sqrt (1 - s.apply energy * s.apply energy)| =
      2 / Real.pi / |s.a| / Real.sqrt (1 - s.apply energy * s.apply energy) := by
    rw [abs_div, abs_div, abs_of_nonneg (Real.sqrt_nonneg _), abs_of_pos (show 0 < 2 / Real.pi from div_pos two_pos Real.pi_pos)]
  rw [hpre]
  refine mul_le_mul_of_nonneg_left ?_ (by positivity)
  have sumOf : ∀ c : List ℂ, ((damp g c).mapIdx fun n m => m.re * Real.cos (n * Real.arccos (s.apply energy))).sum =
      ∑ k ∈ range c.length, (g c.length k • c.getD k default).re * Real.cos (k * Real.arccos (s.apply energy)) := by
    intro c
    conv_lhs => rw [range_of_list c]
    rw [damp_range, sum_mapIdx_range]
  rw [sumOf, sumOf, hlen, ← sum_sub_distrib]
  have hb : ∑ k ∈ range b.length, (7 / 4 * γ * (((k : ℝ) + 2) * (k + 4)) + 72 * δ) =
      7 / 4 * γ * (b.length * (2 * b.length ^ 2 + 15 * b.length + 31) / 6) + 72 * δ * b.length := by
    rw [sum_add_distrib, ← mul_sum, sum_squares, sum_const, card_range, nsmul_eq_mul]
    ring
  rw [← hb]
  refine (abs_sum_le_sum_abs _ _).trans (sum_le_sum fun k hk => ?_)
  have hk := mem_range.1 hk
  have h1 := hab k (by omega) hk
  have e1 : a.getD k default = a[k]'(by omega) := by simp [List.getD_eq_getElem?_getD, List.getElem?_eq_getElem (show k < a.length by omega)]
  have e2 : b.getD k default = b[k] := by simp [List.getD_eq_getElem?_getD, List.getElem?_eq_getElem hk]
  rw [e1, e2, ← sub_mul, ← Complex.sub_re, ← smul_sub, Complex.smul_re, smul_eq_mul, abs_mul, abs_mul]
  have h2 := hg k (by omega)
  rw [hlen] at h2
  have h3 := (Complex.abs_re_le_norm (a[k]'(by omega) - b[k])).trans h1
  have h4 := Real.abs_cos_le_one (k * Real.arccos (s.apply energy))
  have h5 := mul_le_mul h2 h3 (abs_nonneg _) zero_le_one
  rw [one_mul] at h5
  have h6 := mul_le_mul h5 h4 (abs_nonneg _) ((mul_nonneg (abs_nonneg _) (abs_nonneg _)).trans h5)
  rwa [mul_one] at h6

/-- **C100** (the size of the error).  The error of the scalar products is at most `2 D u`. -/
theorem C100_unit {u : ℝ} (hu : 0 ≤ u) (D : Nat) (h : D * u ≤ 1) : (1 + u) ^ D - 1 ≤ 2 * D * u := by
  have h1 : (1 + u) ^ D ≤ Real.exp (D * u) := by
    rw [Real.exp_nat_mul]
    exact pow_le_pow_left₀ (by linarith) (by linarith [Real.add_one_le_exp u]) D
  have h2 := Real.abs_exp_sub_one_le (x := D * u) (by rwa [abs_of_nonneg (by positivity)])
  rw [abs_of_nonneg (show (0 : ℝ) ≤ D * u by positivity)] at h2
  have h3 := le_abs_self (Real.exp (D * u) - 1)
  linarith

/-! ## Sums from the first to the last product -/

/-- Products added up one after the other: the loops before and after the vectors, compute/kernel_polynomial.hpp:241-246, 280-285. -/
def Order.line (o : Order) : List Nat → Order
  | [] => o
  | p :: l => Order.line (.add o (.term p)) l

theorem Order.line_spec (l : List Nat) (o : Order) : (o.line l).starts = o.starts ∧ (o.line l).terms = o.terms ++ l ∧ (o.line l).depth = o.depth + l.length := by
  induction l generalizing o with
  | nil => simp [Order.line]
  | cons p l ih =>
    obtain ⟨h1, h2, h3⟩ := ih (.add o (.term p))
    refine ⟨?_, ?_, ?_⟩
    · rw [Order.line, h1]; simp [Order.starts]
    · rw [Order.line, h2]; simp [Order.terms]
    · rw [Order.line, h3]; simp only [Order.depth, List.length_cons, Nat.max_zero]; omega

/-- Kernels that add up all products one after the other; compute/kernel_polynomial.hpp:63-65 without reassociation. -/
def Orders.line (n : Nat) : Orders n where
  sq a b _ _ := Order.line .start (List.range' (2 * a) (2 * (b - a)))
  dot a b _ _ := Order.line .start (List.range' a (b - a))
  sq0 _ := Order.line .zero (List.range' 0 (2 * n))
  dot0 _ _ := Order.line .zero (List.range' 0 n)

/-- **C100** (simple loops).  Sums from the first to the last product have `2 n` additions. -/
theorem C100_line (n : Nat) : (Orders.line n).Valid (fun b => 2 * b) 0 := by
  have hs : ∀ (o : Order) (l : List Nat) (a : Nat → ℂ), o.terms = [] → (o.line l).Sums o.starts l a := fun o l a ho =>
    ⟨(Order.line_spec l o).1, fun _ => true, by rw [(Order.line_spec l o).2.1, ho, List.nil_append, List.filter_true], fun _ _ h => by cases h⟩
  refine ⟨fun a b h => Nat.mul_le_mul_left 2 h, fun a b x y h1 h2 => ⟨hs .start _ _ rfl, ?_⟩, fun a b x y h1 h2 => ⟨hs .start _ _ rfl, ?_⟩,
    fun x => ⟨hs .zero _ _ rfl, ?_⟩, fun x y => ⟨hs .zero _ _ rfl, ?_⟩⟩
  · show (Order.line .start _).depth + 2 * a ≤ 2 * b + 0
    rw [(Order.line_spec _ _).2.2, List.length_range']; simp only [Order.depth]; omega
  · show (Order.line .start _).depth + 2 * a ≤ 2 * b + 0
    rw [(Order.line_spec _ _).2.2, List.length_range']; simp only [Order.depth]; omega
  · show (Order.line .zero _).depth ≤ 2 * n + 0
    rw [(Order.line_spec _ _).2.2, List.length_range']; simp only [Order.depth]; omega
  · show (Order.line .zero _).depth ≤ 2 * n + 0
    rw [(Order.line_spec _ _).2.2, List.length_range']; simp only [Order.depth]; omega

/-! ## Examples -/

/-- Fourteen moments of two sites of the chain in double precision: `a = 3`, `b` is 1/2 in the format, vectors of four rows, all optimisations. -/
example (inter : Bool) :=
  let F : Verif.Hamiltonian.Format := Verif.Hamiltonian.Format.binary 53 (by norm_num)
  have hu : F.unit = (2 : ℝ) ^ (-(53 : ℤ)) := rfl
  have hu0 : F.unit ≤ 1 / 1000000 := by rw [hu]; norm_num
  have hc : |F.fl (1 / 2) - 1 / 2| ≤ 1 / 1000000 := (F.near (1 / 2)).trans (by rw [abs_of_pos (by norm_num)]; linarith)
  C100_ldos (n := 3) F.toRounding true (C99_real F) (c := F.fl (1 / 2)) (C100_line 3) (.simd 4 8 (fun _ _ => 5) (fun _ _ => 9) (fun _ _ _ _ r => r % 4 == 0) 4)
    ⟨by norm_num, by norm_num, by norm_num, 0, by norm_num, by simp [chainRows]⟩ (chainRows_stores F) chainE_hermitian (W := 2) chainF_tame.rows chainF_tame.cols
    (a := 3) (by norm_num) (fun j => by
      have h1 := energies_le chainE_hermitian (R := 2) (by norm_num) (fun i => by simp only [chainE_norm]; exact chainF_tame.rows i) j
      rw [abs_le] at h1 hc ⊢
      constructor <;> linarith [h1.1, h1.2, hc.1, hc.2]) F.unit_nonneg (invA := F.castReal ((2 / 3 : ℝ) : ℂ)) (b := F.castReal ((1 / 2 : ℝ) : ℂ))
    (by
      have := F.near (2 / 3)
      rw [← Complex.ofReal_sub, Complex.norm_real]
      rwa [abs_of_pos (show (0 : ℝ) < 2 / 3 by norm_num)] at this) rfl (N := 2) (fun i hi => by interval_cases i <;> simp [chainRows]) ⟨true, inter⟩ 0 [2]
    (fun _ i => chainRows_reach F i) (L := 7) (by norm_num) (by simp) (fun _ => 7) (by
      have h1 := gam_le F.unit_nonneg 3 (by push_cast; linarith)
      have h2 := C99_scale F.unit_nonneg (by linarith)
      have h3 := scaleError_nonneg F.unit_nonneg F.unit_nonneg F.unit_nonneg
      have h4 := gam_nonneg F.unit_nonneg 3
      rw [abs_le] at hc
      have h5 : |F.fl (1 / 2)| ≤ 1 := abs_le.2 ⟨by linarith [hc.1], by linarith [hc.2]⟩
      push_cast at h1
      have h6 : gam F.unit (2 + 1) + scaleError F.unit F.unit F.unit ≤ 1 / 10000 := by
        show gam F.unit 3 + _ ≤ _
        linarith
      have h7 : (1 + scaleError F.unit F.unit F.unit) * (2 / 3 * (2 + |F.fl (1 / 2)|)) + 1 ≤ 5 := by
        have : (1 + scaleError F.unit F.unit F.unit) * (2 / 3 * (2 + |F.fl (1 / 2)|)) ≤ 2 * 2 :=
          mul_le_mul (by linarith) (by linarith) (by positivity) (by norm_num)
        linarith
      have h8 := mul_le_mul h6 h7 (by positivity) (by norm_num)
      push_cast
      linarith) (D := 31) (by norm_num) (by
      have := C100_unit F.unit_nonneg 31 (by push_cast; linarith)
      push_cast at this
      linarith) 1 (by norm_num)

end Verif.Kpm.Float
