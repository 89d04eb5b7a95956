import Verif.Hamiltonian.Rounded
import Verif.Kpm.FloatKernels

/-!
# Numbers of a floating-point format
-/

namespace Verif.Hamiltonian

open Verif.Kpm.Float (Rounding)

/-- A floating-point format: what is rounded is a number of the format, and positive and negative numbers are rounded alike (as IEEE arithmetic does in its default
mode). `float` and `double` as `num::get_real_t<scalar_t>`, numeric/traits.hpp:27-35. Infinities, NaN, overflow and underflow are not modelled, and there is one zero only. -/
structure Format extends Rounding where
  idem : ∀ x, fl (fl x) = fl x
  odd : ∀ x, fl (-x) = -fl x

namespace Format

variable (F : Format)

theorem fl_zero : F.fl 0 = 0 := by
  have h := F.near 0
  simpa using h

/-- `float`, `double`: the numbers of the format; numeric/traits.hpp:27-35. -/
def Rl : Type := {x : ℝ // F.fl x = x}

/-- `std::complex<float>`, `std::complex<double>`: both parts are numbers of the format; numeric/traits.hpp:27-48. -/
def Cx : Type := {z : ℂ // F.fl z.re = z.re ∧ F.fl z.im = z.im}

noncomputable instance : DecidableEq F.Rl := Classical.decEq _
noncomputable instance : DecidableEq F.Cx := Classical.decEq _

instance : Zero F.Rl := ⟨⟨0, F.fl_zero⟩⟩
instance : Zero F.Cx := ⟨⟨0, by simp [F.fl_zero]⟩⟩

/-- `a += b` and `dup_func` of Eigen for real scalars. Hamiltonian.hpp:115, 128-129. -/
instance : Add F.Rl := ⟨fun a b => ⟨F.fl (a.1 + b.1), F.idem _⟩⟩

/-- `a += b` and `dup_func` of Eigen for complex scalars: both parts are rounded. Hamiltonian.hpp:115, 128-129. -/
instance : Add F.Cx := ⟨fun a b => ⟨⟨F.fl (a.1.re + b.1.re), F.fl (a.1.im + b.1.im)⟩, F.idem _, F.idem _⟩⟩

/-- `hopping * phase` for real scalars. Hamiltonian.hpp:128. -/
instance : Mul F.Rl := ⟨fun a b => ⟨F.fl (a.1 * b.1), F.idem _⟩⟩

/-- `hopping * phase` for complex scalars, without contraction of multiplications and additions. Hamiltonian.hpp:128. -/
noncomputable instance : Mul F.Cx := ⟨fun a b => ⟨F.mul a.1 b.1, F.idem _, F.idem _⟩⟩

/-- `a - b` for real scalars. OptimizedHamiltonian.cpp:66, 126. -/
instance : Sub F.Rl := ⟨fun a b => ⟨F.fl (a.1 - b.1), F.idem _⟩⟩

/-- `a - b` for complex scalars: both parts are rounded. OptimizedHamiltonian.cpp:66, 126. -/
instance : Sub F.Cx := ⟨fun a b => ⟨⟨F.fl (a.1.re - b.1.re), F.fl (a.1.im - b.1.im)⟩, F.idem _, F.idem _⟩⟩

/-- `-a` for real scalars is exact. OptimizedHamiltonian.cpp:136. -/
instance : Neg F.Rl := ⟨fun a => ⟨-a.1, by rw [F.odd, a.2]⟩⟩

/-- `-a` for complex scalars is exact. OptimizedHamiltonian.cpp:136. -/
instance : Neg F.Cx := ⟨fun a => ⟨-a.1, by rw [Complex.neg_re, F.odd, a.2.1], by rw [Complex.neg_im, F.odd, a.2.2]⟩⟩

/-- `num::conjugate` for real scalars, numeric/traits.hpp:59-60. -/
instance : Star F.Rl := ⟨fun a => a⟩

/-- `num::conjugate` for complex scalars, numeric/traits.hpp:61-62. -/
instance : Star F.Cx := ⟨fun a => ⟨⟨a.1.re, -a.1.im⟩, a.2.1, by rw [F.odd, a.2.2]⟩⟩

theorem conj_real : ConjLaws F.Rl := ⟨fun _ => rfl, rfl, fun _ _ => rfl, fun _ => rfl, fun _ _ _ => rfl⟩

variable {F}

theorem cx_ext {a b : F.Cx} (h1 : a.1.re = b.1.re) (h2 : a.1.im = b.1.im) : a = b := Subtype.ext (Complex.ext h1 h2)

variable (F)

theorem conj_complex : ConjLaws F.Cx where
  star_star x := cx_ext rfl (neg_neg _)
  star_zero := cx_ext rfl (by show -(0 : ℂ).im = (0 : ℂ).im; simp)
  star_add x y := cx_ext rfl (by show -F.fl (x.1.im + y.1.im) = F.fl (-x.1.im + -y.1.im); rw [← F.odd]; congr 1; ring)
  pair h := cx_ext rfl (by
    show -F.fl (h.1.im + -h.1.im) = F.fl (h.1.im + -h.1.im)
    rw [add_neg_cancel, F.fl_zero, neg_zero])
  pair_add x h hx := cx_ext rfl (by
    have h0 : x.1.im = 0 := by
      have := congrArg (fun z : F.Cx => z.1.im) hx
      have e : -x.1.im = x.1.im := this
      linarith
    show -F.fl (F.fl (x.1.im + h.1.im) + -h.1.im) = F.fl (F.fl (x.1.im + h.1.im) + -h.1.im)
    rw [h0, zero_add, h.2.2, add_neg_cancel, F.fl_zero, neg_zero])

/-- `num::force_cast` of complex numbers to complex numbers of the format, numeric/traits.hpp:64-78. -/
noncomputable def cast (z : ℂ) : F.Cx := ⟨⟨F.fl z.re, F.fl z.im⟩, F.idem _, F.idem _⟩

/-- `num::force_cast` of complex numbers to real numbers of the format, numeric/traits.hpp:64-78. -/
def castReal (z : ℂ) : F.Rl := ⟨F.fl z.re, F.idem _⟩

theorem cast_star (z : ℂ) : F.cast (star z) = star (F.cast z) := cx_ext rfl (by
  show F.fl (-z.im) = -F.fl z.im
  rw [F.odd])

theorem castReal_star (z : ℂ) : F.castReal (star z) = star (F.castReal z) := rfl

end Format

/-! ## Binary formats -/

open Verif.Kpm.Float (binary binary_near)

theorem round_le_round {x y : ℝ} (h : x ≤ y) : round x ≤ round y := by
  rw [round_eq, round_eq]
  exact Int.floor_mono (by linarith)

theorem binary_pos {p : Nat} (hp : 1 ≤ p) {x : ℝ} (hx : 0 < x) : 0 < binary p x ∧ binary p (binary p x) = binary p x := by
  have hL1 : (2 : ℝ) ^ Int.log 2 x ≤ x := by
    have := Int.zpow_log_le_self (b := 2) (r := x) (by norm_num) hx
    exact_mod_cast this
  have hL2 : x < (2 : ℝ) ^ (Int.log 2 x + 1) := by
    have := Int.lt_zpow_succ_log_self (b := 2) (by norm_num) x
    exact_mod_cast this
  have hdef : ∀ y : ℝ, 0 < y → binary p y = round (y / (2 : ℝ) ^ (Int.log 2 y - p + 1)) * (2 : ℝ) ^ (Int.log 2 y - p + 1) := by
    intro y hy
    unfold binary
    rw [if_neg hy.ne', abs_of_pos hy]
  set L := Int.log 2 x with hL
  set e : ℤ := L - p + 1 with he
  have he0 : (0 : ℝ) < (2 : ℝ) ^ e := zpow_pos (by norm_num) _
  have hlow : ((2 ^ (p - 1) : ℕ) : ℝ) * (2 : ℝ) ^ e = (2 : ℝ) ^ L := by
    push_cast
    rw [← zpow_natCast, ← zpow_add₀ (by norm_num)]
    congr 1
    omega
  have hhigh : ((2 ^ p : ℕ) : ℝ) * (2 : ℝ) ^ e = (2 : ℝ) ^ (L + 1) := by
    push_cast
    rw [← zpow_natCast, ← zpow_add₀ (by norm_num)]
    congr 1
    omega
  set k := round (x / (2 : ℝ) ^ e) with hk
  have hk1 : ((2 ^ (p - 1) : ℕ) : ℤ) ≤ k := by
    have h1 : ((2 ^ (p - 1) : ℕ) : ℝ) ≤ x / (2 : ℝ) ^ e := by
      rw [le_div_iff₀ he0, hlow]; exact hL1
    have h2 := round_le_round h1
    rwa [round_natCast] at h2
  have hk2 : k ≤ ((2 ^ p : ℕ) : ℤ) := by
    have h1 : x / (2 : ℝ) ^ e ≤ ((2 ^ p : ℕ) : ℝ) := by
      rw [div_le_iff₀ he0, hhigh]; exact hL2.le
    have h2 := round_le_round h1
    rwa [round_natCast] at h2
  have hy : binary p x = k * (2 : ℝ) ^ e := hdef x hx
  have hkpos : (0 : ℝ) < k := by
    have : (0 : ℤ) < k := lt_of_lt_of_le (by positivity) hk1
    exact_mod_cast this
  have hypos : 0 < binary p x := by rw [hy]; positivity
  refine ⟨hypos, ?_⟩
  rw [hdef _ hypos]
  have hylow : (2 : ℝ) ^ L ≤ binary p x := by
    rw [hy, ← hlow]
    have : ((2 ^ (p - 1) : ℕ) : ℝ) ≤ k := by exact_mod_cast hk1
    exact mul_le_mul_of_nonneg_right this he0.le
  rcases lt_or_eq_of_le hk2 with hlt | heq
  · have hyhigh : binary p x < (2 : ℝ) ^ (L + 1) := by
      rw [hy, ← hhigh]
      have : (k : ℝ) < ((2 ^ p : ℕ) : ℝ) := by exact_mod_cast hlt
      exact mul_lt_mul_of_pos_right this he0
    have hlog : Int.log 2 (binary p x) = L := by
      apply le_antisymm
      · have := (Int.lt_zpow_iff_log_lt (b := 2) (by norm_num) (x := L + 1) hypos).1 (by exact_mod_cast hyhigh)
        omega
      · exact (Int.zpow_le_iff_le_log (b := 2) (by norm_num) hypos).1 (by exact_mod_cast hylow)
    rw [hlog, ← he, hy, mul_div_cancel_right₀ _ he0.ne', round_intCast]
  · have hyeq : binary p x = (2 : ℝ) ^ (L + 1) := by
      rw [hy, ← hhigh, heq]; norm_cast
    have hlog : Int.log 2 (binary p x) = L + 1 := by
      rw [hyeq]
      exact_mod_cast Int.log_zpow (R := ℝ) (b := 2) (by norm_num) (L + 1)
    rw [hlog, hyeq]
    have e1 : (2 : ℝ) ^ (L + 1) / (2 : ℝ) ^ (L + 1 - p + 1) = ((2 ^ (p - 1) : ℕ) : ℝ) := by
      push_cast
      rw [← zpow_sub₀ (by norm_num), ← zpow_natCast]
      congr 1
      omega
    rw [e1, round_natCast]
    push_cast
    rw [← zpow_natCast, ← zpow_add₀ (by norm_num)]
    congr 1
    omega

/-- Rounding to the nearest binary number of `p` digits, away from zero in the middle: like `float` with `p = 24` and `double` with `p = 53` (numeric/traits.hpp:27-35),
but the exponent is not bounded. -/
noncomputable def nearest (p : Nat) (x : ℝ) : ℝ := if x < 0 then -binary p (-x) else binary p x

/-- The binary format with `p` digits; numeric/traits.hpp:27-35. -/
noncomputable def Format.binary (p : Nat) (hp : 1 ≤ p) : Format where
  fl := nearest p
  unit := (2 : ℝ) ^ (-(p : ℤ))
  unit_nonneg := (zpow_pos (by norm_num) _).le
  near x := by
    unfold nearest
    split
    · have := binary_near p (-x)
      rw [abs_neg] at this
      rw [show -Kpm.Float.binary p (-x) - x = -(Kpm.Float.binary p (-x) - -x) by ring, abs_neg]
      exact this
    · exact binary_near p x
  idem x := by
    unfold nearest
    rcases lt_trichotomy x 0 with h | h | h
    · have := binary_pos hp (x := -x) (by linarith)
      rw [if_pos h, if_pos (by linarith [this.1]), neg_neg, this.2]
    · subst h
      simp [Kpm.Float.binary]
    · have := binary_pos hp h
      rw [if_neg h.le.not_gt, if_neg this.1.le.not_gt, this.2]
  odd x := by
    unfold nearest
    rcases lt_trichotomy x 0 with h | h | h
    · rw [if_neg (by linarith), if_pos h, neg_neg]
    · subst h
      simp [Kpm.Float.binary]
    · rw [if_pos (by linarith), neg_neg, if_neg h.le.not_gt]

end Verif.Hamiltonian
