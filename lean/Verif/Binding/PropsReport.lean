import Verif.Basic
import Mathlib.Tactic.Linarith
import Mathlib.Tactic.Positivity
import Mathlib.Tactic.NormNum
import Mathlib.Tactic.FieldSimp
import Mathlib.Data.Rat.Floor
import Mathlib.Algebra.Order.Field.Basic

/-!
# Durations and numbers in reports (C108)

Source: `cppcore/src/utils/Chrono.cpp`, `cppcore/include/support/format.hpp`, `pybinding/utils/time.py`, `pybinding/utils/misc.py`.
-/

namespace Verif.Report

/-! ## Model -/

/-- What is printed for a duration: `ms d k` is the number `k / 10^d` with `d` decimals and "ms", `s d k` the same with "s", `minSec` is "m:ss" and `hms` is "h:mm:ss". -/
inductive Shown where
  | ms (decimals : Nat) (k : Int)
  | s (decimals : Nat) (k : Int)
  | minSec (m s : Int)
  | hms (h m s : Int)
deriving DecidableEq, Repr

/-- `Chrono::str`, Chrono.cpp:6-34, for the number of nanoseconds; `rnd` is the rounding of the format `{:.2f}`.  Simplified: the conversion of the duration to `float` is exact. -/
def chronoStr (rnd : ℚ → Int) (ns : Nat) : Shown :=
  if ns < 10 ^ 6 then .ms 2 (rnd (ns / 10 ^ 4))
  else if ns < 10 ^ 7 then .ms 1 (rnd (ns / 10 ^ 5))
  else if ns < 10 ^ 8 then .ms 0 (ns / 10 ^ 6 : Nat)
  else if ns < 10 * 10 ^ 9 then .s 2 (rnd (ns / 10 ^ 7))
  else if ns < 20 * 10 ^ 9 then .s 1 (rnd (ns / 10 ^ 8))
  else if ns < 60 * 10 ^ 9 then .s 0 (ns / 10 ^ 9 : Nat)
  else
    let min : Nat := ns / (60 * 10 ^ 9)
    let sec : Nat := ns / 10 ^ 9 - min * 60
    if min < 60 then .minSec min sec
    else
      let hr : Nat := min / 60
      let m : Nat := min - hr * 60
      .hms hr m sec

/-- `pretty_duration`, time.py:58-111, in exact arithmetic; `//` and `int` of a number which is not negative are the integer part. -/
def prettyDuration (rnd : ℚ → Int) (seconds : ℚ) : Shown :=
  let ms := seconds * 1000
  if ms < 1 then .ms 2 (rnd (ms * 100))
  else if ms < 10 then .ms 1 (rnd (ms * 10))
  else if ms < 100 then .ms 0 (rnd ms)
  else if seconds < 10 then .s 2 (rnd (seconds * 100))
  else if seconds < 20 then .s 1 (rnd (seconds * 10))
  else if seconds < 60 then .s 0 (rnd seconds)
  else
    let minutes := ⌊seconds / 60⌋
    let sec := ⌊seconds - minutes * 60⌋
    if minutes < 60 then .minSec minutes sec
    else
      let hours := minutes / 60
      .hms hours (minutes - hours * 60) sec

/-- A number with a suffix, as printed: the mantissa after rounding and the suffix. -/
structure Suffixed where
  mantissa : ℚ
  suffix : String
deriving DecidableEq, Repr

/-- `fmt::with_suffix`, format.hpp:10-27, and `with_suffix`, misc.py:125-132, with base 1000; `sig` is the rounding of the format `{:.3g}`. -/
def withSuffix (sig : ℚ → ℚ) (number : ℚ) : Suffixed :=
  if 999 / 1000 * 10 ^ 9 < number then ⟨sig (number / 10 ^ 9), "G"⟩
  else if 999 / 1000 * 10 ^ 6 < number then ⟨sig (number / 10 ^ 6), "M"⟩
  else if 999 / 1000 * 10 ^ 3 < number then ⟨sig (number / 10 ^ 3), "k"⟩
  else ⟨sig number, ""⟩

/-! ## Specification -/

/-- Rounding to the nearest integer (any rule for halves). -/
def Rounds (rnd : ℚ → Int) : Prop := ∀ x, |(rnd x : ℚ) - x| ≤ 1 / 2

/-- The number of seconds which a reader understands. -/
def Shown.seconds : Shown → ℚ
  | .ms d k => k / 10 ^ d / 1000
  | .s d k => k / 10 ^ d
  | .minSec m x => m * 60 + x
  | .hms h m x => h * 3600 + m * 60 + x

/-- The unit of the last digit, in seconds. -/
def Shown.unit : Shown → ℚ
  | .ms d _ => 1 / 10 ^ d / 1000
  | .s d _ => 1 / 10 ^ d
  | .minSec _ _ => 1
  | .hms _ _ _ => 1

/-- The usual notation: minutes and seconds below sixty. -/
def Shown.Usual : Shown → Prop
  | .ms _ k => 0 ≤ k
  | .s _ k => 0 ≤ k
  | .minSec m x => 1 ≤ m ∧ m < 60 ∧ 0 ≤ x ∧ x < 60
  | .hms h m x => 1 ≤ h ∧ 0 ≤ m ∧ m < 60 ∧ 0 ≤ x ∧ x < 60

/-- The meaning of a suffix. -/
def factor : String → ℚ
  | "k" => 10 ^ 3
  | "M" => 10 ^ 6
  | "G" => 10 ^ 9
  | _ => 1

/-- Rounding to three significant digits: half a unit of the third digit is at most 1/200 of the number; numbers up to 999 stay below 1000. -/
def ThreeDigits (sig : ℚ → ℚ) : Prop := ∀ x, |sig x - x| ≤ |x| / 200 ∧ (0 ≤ x → x ≤ 999 → sig x ≤ 999)

/-! ## Lemmas -/

theorem Rounds.bounds {rnd : ℚ → Int} (h : Rounds rnd) (x : ℚ) : x - 1 / 2 ≤ rnd x ∧ (rnd x : ℚ) ≤ x + 1 / 2 := by
  have := abs_le.1 (h x)
  constructor <;> linarith [this.1, this.2]

theorem Rounds.mono {rnd : ℚ → Int} (h : Rounds rnd) {x y : ℚ} (hxy : x ≤ y) : rnd x ≤ rnd y := by
  rcases hxy.eq_or_lt with rfl | hlt
  · exact le_rfl
  · by_contra hc
    have : (rnd y : ℚ) + 1 ≤ rnd x := by exact_mod_cast not_le.1 hc
    linarith [(h.bounds x).2, (h.bounds y).1]

theorem Rounds.le_int {rnd : ℚ → Int} (h : Rounds rnd) {x : ℚ} {k : Int} (hx : x ≤ k) : rnd x ≤ k := by
  by_contra hc
  have : (k : ℚ) + 1 ≤ rnd x := by exact_mod_cast not_le.1 hc
  linarith [(h.bounds x).2]

theorem Rounds.int_le {rnd : ℚ → Int} (h : Rounds rnd) {x : ℚ} {k : Int} (hx : (k : ℚ) ≤ x) : k ≤ rnd x := by
  by_contra hc
  have : (rnd x : ℚ) + 1 ≤ k := by exact_mod_cast not_le.1 hc
  linarith [(h.bounds x).1]

theorem seconds_eq (rnd : ℚ → Int) (ns : Nat) : (chronoStr rnd ns).seconds =
    if ns < 10 ^ 6 then (rnd (ns / 10 ^ 4) : ℚ) / 10 ^ 5
    else if ns < 10 ^ 7 then (rnd (ns / 10 ^ 5) : ℚ) / 10 ^ 4
    else if ns < 10 ^ 8 then ((ns / 10 ^ 6 : Nat) : ℚ) / 10 ^ 3
    else if ns < 10 * 10 ^ 9 then (rnd (ns / 10 ^ 7) : ℚ) / 10 ^ 2
    else if ns < 20 * 10 ^ 9 then (rnd (ns / 10 ^ 8) : ℚ) / 10
    else ((ns / 10 ^ 9 : Nat) : ℚ) := by
  unfold chronoStr
  by_cases h6 : ns < 60 * 10 ^ 9
  · simp only [if_pos h6]
    split_ifs <;> simp only [Shown.seconds, Int.cast_natCast] <;> ring
  · have e1 : ¬ ns < 10 ^ 6 := by omega
    have e2 : ¬ ns < 10 ^ 7 := by omega
    have e3 : ¬ ns < 10 ^ 8 := by omega
    have e4 : ¬ ns < 10 * 10 ^ 9 := by omega
    have e5 : ¬ ns < 20 * 10 ^ 9 := by omega
    simp only [if_neg e1, if_neg e2, if_neg e3, if_neg e4, if_neg e5, if_neg h6]
    have hms : ns / (60 * 10 ^ 9) = ns / 10 ^ 9 / 60 := by rw [Nat.div_div_eq_div_mul, Nat.mul_comm]
    rw [hms]
    generalize ns / 10 ^ 9 = t
    split_ifs
    · simp only [Shown.seconds]
      exact_mod_cast (by omega : t / 60 * 60 + (t - t / 60 * 60) = t)
    · simp only [Shown.seconds]
      exact_mod_cast (by omega : t / 60 / 60 * 3600 + (t / 60 - t / 60 / 60 * 60) * 60 + (t - t / 60 * 60) = t)

theorem upper {rnd : ℚ → Int} (h : Rounds rnd) (n c : Nat) (hn : n < c) (hc : c ∈ [10 ^ 6, 10 ^ 7, 10 ^ 8, 10 * 10 ^ 9, 20 * 10 ^ 9, 60 * 10 ^ 9]) :
    (chronoStr rnd n).seconds ≤ c / 10 ^ 9 := by
  have r : ∀ (d k : Nat), 0 < d → n < d * k → (rnd (n / (d : ℚ)) : ℚ) ≤ k := by
    intro d k hd hk
    have hk' : (n : ℚ) < d * k := by exact_mod_cast hk
    have : rnd (n / (d : ℚ)) ≤ (k : Int) := h.le_int (by rw [div_le_iff₀ (by exact_mod_cast hd)]; push_cast; linarith)
    exact_mod_cast this
  have q : ∀ (d k : Nat), 0 < d → n < d * k → ((n / d : Nat) : ℚ) ≤ k := by
    intro d k hd hk
    exact_mod_cast (Nat.div_lt_of_lt_mul hk).le
  have f1 := r (10 ^ 4) (10 ^ 2) (by norm_num)
  have f2 := r (10 ^ 5) (10 ^ 2) (by norm_num)
  have f3 := q (10 ^ 6) (10 ^ 2) (by norm_num)
  have f4 := r (10 ^ 7) (10 ^ 3) (by norm_num)
  have f5 := r (10 ^ 8) (2 * 10 ^ 2) (by norm_num)
  have f6 := q (10 ^ 9) 60 (by norm_num)
  push_cast at f1 f2 f3 f4 f5 f6
  rw [seconds_eq]
  simp only [List.mem_cons, List.not_mem_nil, or_false] at hc
  split_ifs with h1 h2 h3 h4 h5
  · have := f1 (by omega)
    rcases hc with rfl | rfl | rfl | rfl | rfl | rfl <;> push_cast <;> linarith
  · have := f2 (by omega)
    rcases hc with rfl | rfl | rfl | rfl | rfl | rfl <;> first | omega | (push_cast; linarith)
  · have := f3 (by omega)
    rcases hc with rfl | rfl | rfl | rfl | rfl | rfl <;> first | omega | (push_cast; linarith)
  · have := f4 (by omega)
    rcases hc with rfl | rfl | rfl | rfl | rfl | rfl <;> first | omega | (push_cast; linarith)
  · have := f5 (by omega)
    rcases hc with rfl | rfl | rfl | rfl | rfl | rfl <;> first | omega | (push_cast; linarith)
  · have := f6 (by omega)
    rcases hc with rfl | rfl | rfl | rfl | rfl | rfl <;> first | omega | (push_cast; linarith)

theorem lower {rnd : ℚ → Int} (h : Rounds rnd) (n c : Nat) (hn : c ≤ n) (hc : c ∈ [10 ^ 6, 10 ^ 7, 10 ^ 8, 10 * 10 ^ 9, 20 * 10 ^ 9, 60 * 10 ^ 9]) :
    (c : ℚ) / 10 ^ 9 ≤ (chronoStr rnd n).seconds := by
  have r : ∀ (d k : Nat), 0 < d → d * k ≤ n → (k : ℚ) ≤ (rnd (n / (d : ℚ)) : ℚ) := by
    intro d k hd hk
    have hk' : (d : ℚ) * k ≤ n := by exact_mod_cast hk
    have : (k : Int) ≤ rnd (n / (d : ℚ)) := h.int_le (by rw [le_div_iff₀ (by exact_mod_cast hd)]; push_cast; linarith)
    exact_mod_cast this
  have q : ∀ (d k : Nat), 0 < d → d * k ≤ n → (k : ℚ) ≤ ((n / d : Nat) : ℚ) := by
    intro d k hd hk
    exact_mod_cast (Nat.le_div_iff_mul_le hd).2 (by rw [Nat.mul_comm]; exact hk)
  have f2 := r (10 ^ 5) 10 (by norm_num)
  have f3 := q (10 ^ 6) 10 (by norm_num)
  have f4 := r (10 ^ 7) 10 (by norm_num)
  have f5 := r (10 ^ 8) (10 ^ 2) (by norm_num)
  have f6 := q (10 ^ 9) 20 (by norm_num)
  have f7 := q (10 ^ 9) 60 (by norm_num)
  push_cast at f2 f3 f4 f5 f6 f7
  rw [seconds_eq]
  simp only [List.mem_cons, List.not_mem_nil, or_false] at hc
  split_ifs with h1 h2 h3 h4 h5
  · omega
  · have := f2 (by omega)
    rcases hc with rfl | rfl | rfl | rfl | rfl | rfl <;> first | omega | (push_cast; linarith)
  · have := f3 (by omega)
    rcases hc with rfl | rfl | rfl | rfl | rfl | rfl <;> first | omega | (push_cast; linarith)
  · have := f4 (by omega)
    rcases hc with rfl | rfl | rfl | rfl | rfl | rfl <;> first | omega | (push_cast; linarith)
  · have := f5 (by omega)
    rcases hc with rfl | rfl | rfl | rfl | rfl | rfl <;> first | omega | (push_cast; linarith)
  · have := f6 (by omega)
    rcases hc with rfl | rfl | rfl | rfl | rfl | rfl
    all_goals first | (push_cast; linarith) | (have := f7 (by omega); push_cast; linarith)

/-! ## C108 -/

/-- **C108**: a printed duration of the C++ code differs from the elapsed time by less than one unit of the last printed digit, and minutes and seconds are below sixty. -/
theorem C108_duration {rnd : ℚ → Int} (h : Rounds rnd) (ns : Nat) :
    |(chronoStr rnd ns).seconds - ns / 10 ^ 9| < (chronoStr rnd ns).unit ∧ (chronoStr rnd ns).Usual := by
  have key : ∀ (d : Nat), 0 < d → (d : ℚ) * (ns / d : Nat) ≤ ns ∧ (ns : ℚ) < d * (ns / d : Nat) + d := by
    intro d hd
    have h1 := Nat.div_add_mod ns d
    have h2 := Nat.mod_lt ns hd
    constructor
    · exact_mod_cast (by omega : d * (ns / d) ≤ ns)
    · exact_mod_cast (by omega : ns < d * (ns / d) + d)
  unfold chronoStr
  split_ifs with h1 h2 h3 h4 h5 h6
  · refine ⟨?_, h.int_le (by push_cast; positivity)⟩
    simp only [Shown.seconds, Shown.unit]
    have := h.bounds (ns / 10 ^ 4)
    rw [abs_lt]
    constructor <;> linarith [this.1, this.2]
  · refine ⟨?_, h.int_le (by push_cast; positivity)⟩
    simp only [Shown.seconds, Shown.unit]
    have := h.bounds (ns / 10 ^ 5)
    rw [abs_lt]
    constructor <;> linarith [this.1, this.2]
  · refine ⟨?_, Int.natCast_nonneg _⟩
    simp only [Shown.seconds, Shown.unit, Int.cast_natCast]
    have := key (10 ^ 6) (by norm_num)
    push_cast at this
    rw [abs_lt]
    constructor <;> linarith [this.1, this.2]
  · refine ⟨?_, h.int_le (by push_cast; positivity)⟩
    simp only [Shown.seconds, Shown.unit]
    have := h.bounds (ns / 10 ^ 7)
    rw [abs_lt]
    constructor <;> linarith [this.1, this.2]
  · refine ⟨?_, h.int_le (by push_cast; positivity)⟩
    simp only [Shown.seconds, Shown.unit]
    have := h.bounds (ns / 10 ^ 8)
    rw [abs_lt]
    constructor <;> linarith [this.1, this.2]
  · refine ⟨?_, Int.natCast_nonneg _⟩
    simp only [Shown.seconds, Shown.unit, Int.cast_natCast]
    have := key (10 ^ 9) (by norm_num)
    push_cast at this
    rw [abs_lt]
    constructor <;> linarith [this.1, this.2]
  · have hk := key (10 ^ 9) (by norm_num)
    have hms : ns / (60 * 10 ^ 9) = ns / 10 ^ 9 / 60 := by rw [Nat.div_div_eq_div_mul, Nat.mul_comm]
    simp only
    rw [hms]
    generalize ns / 10 ^ 9 = t at hk hms ⊢
    have ht : 60 ≤ t := by
      have h7 : (60 * 10 ^ 9 : ℚ) ≤ ns := by exact_mod_cast not_lt.1 h6
      have h8 : (59 : ℚ) < t := by push_cast at hk; linarith [hk.2]
      exact_mod_cast (by exact_mod_cast h8 : 59 < t)
    split_ifs with h7
    · refine ⟨?_, by simp only [Shown.Usual]; omega⟩
      simp only [Shown.seconds, Shown.unit]
      have e : (((t / 60 : Nat) : Int) : ℚ) * 60 + (((t - t / 60 * 60 : Nat) : Int) : ℚ) = t := by exact_mod_cast (by omega : t / 60 * 60 + (t - t / 60 * 60) = t)
      rw [e]
      push_cast at hk
      rw [abs_lt]
      constructor <;> linarith [hk.1, hk.2]
    · refine ⟨?_, by simp only [Shown.Usual]; omega⟩
      simp only [Shown.seconds, Shown.unit]
      have e : (((t / 60 / 60 : Nat) : Int) : ℚ) * 3600 + (((t / 60 - t / 60 / 60 * 60 : Nat) : Int) : ℚ) * 60 + (((t - t / 60 * 60 : Nat) : Int) : ℚ) = t := by
        exact_mod_cast (by omega : t / 60 / 60 * 3600 + (t / 60 - t / 60 / 60 * 60) * 60 + (t - t / 60 * 60) = t)
      rw [e]
      push_cast at hk
      rw [abs_lt]
      constructor <;> linarith [hk.1, hk.2]

/-- **C108**: the same for the Python code. -/
theorem C108_python {rnd : ℚ → Int} (h : Rounds rnd) {t : ℚ} (ht : 0 ≤ t) :
    |(prettyDuration rnd t).seconds - t| < (prettyDuration rnd t).unit ∧ (prettyDuration rnd t).Usual := by
  unfold prettyDuration
  simp only
  split_ifs with h1 h2 h3 h4 h5 h6 h7
  · refine ⟨?_, h.int_le (by push_cast; positivity)⟩
    simp only [Shown.seconds, Shown.unit]
    have := h.bounds (t * 1000 * 100)
    rw [abs_lt]
    constructor <;> linarith [this.1, this.2]
  · refine ⟨?_, h.int_le (by push_cast; positivity)⟩
    simp only [Shown.seconds, Shown.unit]
    have := h.bounds (t * 1000 * 10)
    rw [abs_lt]
    constructor <;> linarith [this.1, this.2]
  · refine ⟨?_, h.int_le (by push_cast; positivity)⟩
    simp only [Shown.seconds, Shown.unit]
    have := h.bounds (t * 1000)
    rw [abs_lt]
    constructor <;> linarith [this.1, this.2]
  · refine ⟨?_, h.int_le (by push_cast; positivity)⟩
    simp only [Shown.seconds, Shown.unit]
    have := h.bounds (t * 100)
    rw [abs_lt]
    constructor <;> linarith [this.1, this.2]
  · refine ⟨?_, h.int_le (by push_cast; positivity)⟩
    simp only [Shown.seconds, Shown.unit]
    have := h.bounds (t * 10)
    rw [abs_lt]
    constructor <;> linarith [this.1, this.2]
  · refine ⟨?_, h.int_le (by push_cast; positivity)⟩
    simp only [Shown.seconds, Shown.unit]
    have := h.bounds t
    rw [abs_lt]
    constructor <;> linarith [this.1, this.2]
  all_goals
    have a1 := Int.floor_le (t / 60)
    have a2 := Int.lt_floor_add_one (t / 60)
    generalize ⌊t / 60⌋ = m at a1 a2 h7 ⊢
    have b1 := Int.floor_le (t - m * 60)
    have b2 := Int.lt_floor_add_one (t - m * 60)
    generalize ⌊t - m * 60⌋ = s at b1 b2 ⊢
    have m1 : 1 ≤ m := by
      have : (0 : ℚ) < m := by linarith
      exact_mod_cast this
    have s0 : 0 ≤ s := by
      have : (-1 : ℚ) < s := by linarith
      have : (-1 : Int) < s := by exact_mod_cast this
      omega
    have s1 : s < 60 := by
      have : (s : ℚ) < 60 := by linarith
      exact_mod_cast this
  · refine ⟨?_, by simp only [Shown.Usual]; omega⟩
    simp only [Shown.seconds, Shown.unit]
    rw [abs_lt]
    constructor <;> linarith
  · refine ⟨?_, by simp only [Shown.Usual]; omega⟩
    simp only [Shown.seconds, Shown.unit]
    have e : ((m / 60 : Int) : ℚ) * 3600 + ((m - m / 60 * 60 : Int) : ℚ) * 60 = m * 60 := by push_cast; ring
    rw [e, abs_lt]
    constructor <;> linarith

/-- **C108**: both print the same duration in the same notation, and the same digits except between 10 and 100 milliseconds and between 20 and 60 seconds, where the C++ code cuts off and the Python
code rounds: the last digit may be larger by one in Python. -/
theorem C108_same {rnd : ℚ → Int} (h : Rounds rnd) (ns : Nat) :
    chronoStr rnd ns = prettyDuration rnd (ns / 10 ^ 9) ∨
    (10 ^ 7 ≤ ns ∧ ns < 10 ^ 8 ∧ ∃ k, chronoStr rnd ns = .ms 0 k ∧ prettyDuration rnd (ns / 10 ^ 9) = .ms 0 (k + 1)) ∨
    (20 * 10 ^ 9 ≤ ns ∧ ns < 60 * 10 ^ 9 ∧ ∃ k, chronoStr rnd ns = .s 0 k ∧ prettyDuration rnd (ns / 10 ^ 9) = .s 0 (k + 1)) := by
  have key : ∀ (d : Nat), 0 < d → (d : ℚ) * (ns / d : Nat) ≤ ns ∧ (ns : ℚ) < d * (ns / d : Nat) + d := by
    intro d hd
    have h1 := Nat.div_add_mod ns d
    have h2 := Nat.mod_lt ns hd
    constructor
    · exact_mod_cast (by omega : d * (ns / d) ≤ ns)
    · exact_mod_cast (by omega : ns < d * (ns / d) + d)
  have hlt : ∀ (c : Nat), (ns : ℚ) < c ↔ ns < c := fun c => by exact_mod_cast Iff.rfl
  have c1 : (ns : ℚ) / 10 ^ 9 * 1000 < 1 ↔ ns < 10 ^ 6 := by rw [← hlt]; push_cast; constructor <;> intro h <;> linarith
  have c2 : (ns : ℚ) / 10 ^ 9 * 1000 < 10 ↔ ns < 10 ^ 7 := by rw [← hlt]; push_cast; constructor <;> intro h <;> linarith
  have c3 : (ns : ℚ) / 10 ^ 9 * 1000 < 100 ↔ ns < 10 ^ 8 := by rw [← hlt]; push_cast; constructor <;> intro h <;> linarith
  have c4 : (ns : ℚ) / 10 ^ 9 < 10 ↔ ns < 10 * 10 ^ 9 := by rw [← hlt]; push_cast; constructor <;> intro h <;> linarith
  have c5 : (ns : ℚ) / 10 ^ 9 < 20 ↔ ns < 20 * 10 ^ 9 := by rw [← hlt]; push_cast; constructor <;> intro h <;> linarith
  have c6 : (ns : ℚ) / 10 ^ 9 < 60 ↔ ns < 60 * 10 ^ 9 := by rw [← hlt]; push_cast; constructor <;> intro h <;> linarith
  have step : ∀ (d : Nat), 0 < d → rnd (ns / d) = (ns / d : Nat) ∨ rnd (ns / d) = (ns / d : Nat) + 1 := by
    intro d hd
    have hd' : (0 : ℚ) < d := by exact_mod_cast hd
    have k := key d hd
    have l1 : ((ns / d : Nat) : Int) ≤ rnd (ns / d) := h.int_le (by rw [le_div_iff₀ hd', Int.cast_natCast]; linarith [k.1])
    have l2 : rnd (ns / d) ≤ ((ns / d : Nat) : Int) + 1 := h.le_int (by rw [div_le_iff₀ hd', Int.cast_add, Int.cast_natCast, Int.cast_one]; linarith [k.2])
    omega
  unfold prettyDuration chronoStr
  simp only [c1, c2, c3, c4, c5, c6]
  split_ifs with h1 h2 h3 h4 h5 h6 h7 h8 h9
  · left; congr 2; ring
  · left; congr 2; ring
  · have e : (ns : ℚ) / 10 ^ 9 * 1000 = ns / ((10 ^ 6 : Nat) : ℚ) := by push_cast; ring
    rw [e]
    rcases step (10 ^ 6) (by norm_num) with e | e
    · left; rw [e]
    · right; left; exact ⟨not_lt.1 h2, h3, _, rfl, by rw [e]⟩
  · left; congr 2; ring
  · left; congr 2; ring
  · have e : (ns : ℚ) / 10 ^ 9 = ns / ((10 ^ 9 : Nat) : ℚ) := by push_cast; ring
    rw [e]
    rcases step (10 ^ 9) (by norm_num) with e | e
    · left; rw [e]
    · right; right; exact ⟨not_lt.1 h5, h6, _, rfl, by rw [e]⟩
  all_goals
    left
    have k := key (10 ^ 9) (by norm_num)
    have hms : ns / (60 * 10 ^ 9) = ns / 10 ^ 9 / 60 := by rw [Nat.div_div_eq_div_mul, Nat.mul_comm]
    simp only [hms] at *
    generalize ns / 10 ^ 9 = t at *
    push_cast at k
    have fm : ⌊(ns : ℚ) / 10 ^ 9 / 60⌋ = ((t / 60 : Nat) : Int) := by
      rw [Int.floor_eq_iff]
      have e1 : ((t / 60 : Nat) : ℚ) * 60 ≤ t := by exact_mod_cast (by omega : t / 60 * 60 ≤ t)
      have e2 : (t : ℚ) + 1 ≤ ((t / 60 : Nat) : ℚ) * 60 + 60 := by exact_mod_cast (by omega : t + 1 ≤ t / 60 * 60 + 60)
      constructor
      · rw [Int.cast_natCast]; linarith [k.1]
      · rw [Int.cast_natCast]; linarith [k.2]
    have fs : ⌊(ns : ℚ) / 10 ^ 9 - (((t / 60 : Nat) : Int) : ℚ) * 60⌋ = ((t - t / 60 * 60 : Nat) : Int) := by
      rw [Int.floor_eq_iff]
      have e1 : ((t - t / 60 * 60 : Nat) : ℚ) + ((t / 60 : Nat) : ℚ) * 60 = t := by exact_mod_cast (by omega : (t - t / 60 * 60) + t / 60 * 60 = t)
      constructor
      · rw [Int.cast_natCast, Int.cast_natCast]; linarith [k.1]
      · rw [Int.cast_natCast, Int.cast_natCast]; linarith [k.2]
    simp only [fm, fs] at *
  · omega
  · omega
  · congr 1
    omega

/-- **C108**: from one millisecond on at least two digits are printed; below, hundredths of a millisecond. -/
theorem C108_digits (rnd : ℚ → Int) (ns : Nat) :
    (ns < 10 ^ 6 → (chronoStr rnd ns).unit = 1 / 10 ^ 5) ∧ (10 ^ 6 ≤ ns → (chronoStr rnd ns).unit ≤ ns / 10 ^ 9 / 10) := by
  have cast : ∀ c : Nat, ¬ ns < c → (c : ℚ) ≤ ns := fun c hc => by exact_mod_cast not_lt.1 hc
  unfold chronoStr
  split_ifs with h1 h2 h3 h4 h5 h6
  · exact ⟨fun _ => by norm_num [Shown.unit], fun h => by omega⟩
  · have := cast _ h1
    push_cast at this
    exact ⟨fun h => absurd h h1, fun _ => by simp only [Shown.unit]; linarith⟩
  · have := cast _ h2
    push_cast at this
    exact ⟨fun h => absurd h h1, fun _ => by simp only [Shown.unit]; linarith⟩
  · have := cast _ h3
    push_cast at this
    exact ⟨fun h => absurd h h1, fun _ => by simp only [Shown.unit]; linarith⟩
  · have := cast _ h4
    push_cast at this
    exact ⟨fun h => absurd h h1, fun _ => by simp only [Shown.unit]; linarith⟩
  · have := cast _ h5
    push_cast at this
    exact ⟨fun h => absurd h h1, fun _ => by simp only [Shown.unit]; linarith⟩
  · have := cast _ h6
    push_cast at this
    refine ⟨fun h => absurd h h1, fun _ => ?_⟩
    simp only
    split_ifs <;> simp only [Shown.unit] <;> linarith

/-- **C108**: a later time is never printed as a smaller one. -/
theorem C108_monotone {rnd : ℚ → Int} (h : Rounds rnd) {a b : Nat} (hab : a ≤ b) : (chronoStr rnd a).seconds ≤ (chronoStr rnd b).seconds := by
  -- a bound which separates neighboring notations separates the printed values
  have up : ∀ n (c : Nat), n < c → c ∈ [10 ^ 6, 10 ^ 7, 10 ^ 8, 10 * 10 ^ 9, 20 * 10 ^ 9, 60 * 10 ^ 9] → (chronoStr rnd n).seconds ≤ c / 10 ^ 9 :=
    fun n c hn hc => upper h n c hn hc
  have low : ∀ n (c : Nat), c ≤ n → c ∈ [10 ^ 6, 10 ^ 7, 10 ^ 8, 10 * 10 ^ 9, 20 * 10 ^ 9, 60 * 10 ^ 9] → (c : ℚ) / 10 ^ 9 ≤ (chronoStr rnd n).seconds :=
    fun n c hn hc => lower h n c hn hc
  by_cases hs : ∃ c ∈ [10 ^ 6, 10 ^ 7, 10 ^ 8, 10 * 10 ^ 9, 20 * 10 ^ 9, 60 * 10 ^ 9], a < c ∧ c ≤ b
  · obtain ⟨c, hc, h1, h2⟩ := hs
    exact (up a c h1 hc).trans (low b c h2 hc)
  · have same : ∀ c ∈ [10 ^ 6, 10 ^ 7, 10 ^ 8, 10 * 10 ^ 9, 20 * 10 ^ 9, 60 * 10 ^ 9], (a < c ↔ b < c) := by
      intro c hc
      constructor
      · intro h1
        by_contra h2
        exact hs ⟨c, hc, h1, not_lt.1 h2⟩
      · intro h1; omega
    have hab' : (a : ℚ) ≤ b := by exact_mod_cast hab
    rw [seconds_eq, seconds_eq]
    simp only [same (10 ^ 6) (by simp), same (10 ^ 7) (by simp), same (10 ^ 8) (by simp), same (10 * 10 ^ 9) (by simp), same (20 * 10 ^ 9) (by simp), same (60 * 10 ^ 9) (by simp)]
    have r : ∀ c : ℚ, 0 < c → (rnd (a / c) : ℚ) ≤ rnd (b / c) := fun c hc => by exact_mod_cast h.mono (div_le_div_of_nonneg_right hab' hc.le)
    have q : ∀ c : Nat, ((a / c : Nat) : ℚ) ≤ (b / c : Nat) := fun c => by exact_mod_cast Nat.div_le_div_right hab
    split_ifs
    · linarith [r (10 ^ 4) (by norm_num)]
    · linarith [r (10 ^ 5) (by norm_num)]
    · linarith [q (10 ^ 6)]
    · linarith [r (10 ^ 7) (by norm_num)]
    · linarith [r (10 ^ 8) (by norm_num)]
    · linarith [q (10 ^ 9)]

/-- **C108**: a printed number with suffix is within half a percent, and up to 999 billion the digits are below 1000 (no exponent), and a suffix is only used when the number reaches it. -/
theorem C108_suffix {sig : ℚ → ℚ} (h : ThreeDigits sig) (x : ℚ) :
    |(withSuffix sig x).mantissa * factor (withSuffix sig x).suffix - x| ≤ |x| / 200 ∧
    (0 ≤ x → x ≤ 999 * 10 ^ 9 → (withSuffix sig x).mantissa ≤ 999) ∧
    ((withSuffix sig x).suffix ≠ "" → 99 / 100 < (withSuffix sig x).mantissa) := by
  have big : ∀ c : ℚ, 0 < c → 999 / 1000 * c < x → 99 / 100 < sig (x / c) := by
    intro c hc hx
    have h1 := (h (x / c)).1
    have h2 : 999 / 1000 < x / c := by rwa [lt_div_iff₀ hc]
    rw [abs_of_pos (show 0 < x / c by linarith)] at h1
    linarith [(abs_le.1 h1).1]
  have scale : ∀ c : ℚ, 0 < c → |sig (x / c) * c - x| ≤ |x| / 200 := by
    intro c hc
    have h1 := (h (x / c)).1
    rw [abs_div, abs_of_pos hc] at h1
    have e : sig (x / c) * c - x = (sig (x / c) - x / c) * c := by field_simp
    rw [e, abs_mul, abs_of_pos hc]
    calc |sig (x / c) - x / c| * c ≤ |x| / c / 200 * c := mul_le_mul_of_nonneg_right h1 hc.le
      _ = |x| / 200 := by field_simp
  unfold withSuffix
  split_ifs with h1 h2 h3
  · exact ⟨scale _ (by norm_num), fun h0 hx => (h _).2 (by positivity) (by linarith), fun _ => big _ (by norm_num) (by assumption)⟩
  · exact ⟨scale _ (by norm_num), fun h0 hx => (h _).2 (by positivity) (by linarith), fun _ => big _ (by norm_num) (by assumption)⟩
  · exact ⟨scale _ (by norm_num), fun h0 hx => (h _).2 (by positivity) (by linarith), fun _ => big _ (by norm_num) (by assumption)⟩
  · refine ⟨?_, fun h0 hx => (h _).2 h0 (by linarith), fun e => absurd rfl e⟩
    simpa [factor] using (h x).1

/-! ## Non-vacuity -/

/-- Rounding half up. -/
theorem rounds_floor : Rounds (fun x => ⌊x + 1 / 2⌋) := by
  intro x
  have h1 := Int.floor_le (x + 1 / 2)
  have h2 := Int.lt_floor_add_one (x + 1 / 2)
  rw [abs_le]
  constructor <;> linarith

/-- Cutting off is different from rounding: 59.7 seconds are "59s" in C++ and "60s" in Python. -/
theorem C108_witness {rnd : ℚ → Int} (h : Rounds rnd) :
    chronoStr rnd 59700000000 = .s 0 59 ∧ prettyDuration rnd (59700000000 / 10 ^ 9) = .s 0 60 := by
  constructor
  · norm_num [chronoStr]
  · norm_num [prettyDuration]
    have l := h.bounds (597 / 10)
    have l1 : (59 : ℚ) < rnd (597 / 10) := by linarith [l.1]
    have l2 : (rnd (597 / 10) : ℚ) < 61 := by linarith [l.2]
    have l1' : 59 < rnd (597 / 10) := by exact_mod_cast l1
    have l2' : rnd (597 / 10) < 61 := by exact_mod_cast l2
    omega

example : |(chronoStr (fun x => ⌊x + 1 / 2⌋) 6217100000000).seconds - (6217100000000 : Nat) / 10 ^ 9| < 1 := (C108_duration rounds_floor 6217100000000).1

example (rnd : ℚ → Int) : chronoStr rnd 6217100000000 = .hms 1 43 37 := by norm_num [chronoStr]

example : chronoStr (fun x => ⌊x + 1 / 2⌋) 2100000 = .ms 1 21 := by norm_num [chronoStr]

example : ThreeDigits id := fun x => ⟨by simpa using div_nonneg (abs_nonneg x) (by norm_num), fun _ h => h⟩

example : withSuffix id 14226 = ⟨14226 / 1000, "k"⟩ := by norm_num [withSuffix]

end Verif.Report
