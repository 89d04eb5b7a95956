import Verif.Kpm.Config
import Verif.Kpm.PropsReorder
import Mathlib.Tactic.Linarith
import Mathlib.Tactic.Positivity
import Mathlib.Tactic.FieldSimp
import Mathlib.LinearAlgebra.Matrix.Hermitian

/-!
# Properties of the KPM front end (C33, C34, C35, C36, C43, C52)
-/

namespace Verif.Kpm

open Verif.Numeric
open Verif.Hopping (Csr)
open Verif.Hamiltonian (Sorted coeff)

/-! ## C33: the energy scale -/

/-- **C33**.  For `min < max` the scale factors exist, every energy between the bounds is mapped strictly inside
`(-1, 1)` (also when the centre was rounded to zero), and the map is strictly increasing. -/
theorem C33_scaled_inside {R : Type} [Field R] [LinearOrder R] [IsStrictOrderedRing R] {min max : R} (h : min < max) :
    ∃ s, Scale.ofBounds min max = .ok s ∧ 0 < s.a ∧ (∀ E, min ≤ E → E ≤ max → -1 < s.apply E ∧ s.apply E < 1) ∧
      ∀ E E', E < E' → s.apply E < s.apply E' := by
  have ha : 0 < 1 / 2 * (max - min) * (1 + 1 / 100 : R) := by
    have : 0 < max - min := sub_pos.2 h
    positivity
  have hmono : ∀ s : Scale R, 0 < s.a → ∀ E E', E < E' → s.apply E < s.apply E' := by
    intro s hs E E' hE
    unfold Scale.apply
    exact div_lt_div_of_pos_right (by linarith) hs
  unfold Scale.ofBounds
  simp only
  rw [if_neg (ne_of_gt ha)]
  generalize hA : 1 / 2 * (max - min) * (1 + 1 / 100 : R) = a at *
  generalize hB : 1 / 2 * (max + min) = b at *
  have hw : max - min = a * (200 / 101) := by rw [← hA]; ring
  have hsum : max + min = 2 * b := by rw [← hB]; ring
  split
  · rename_i hr
    refine ⟨⟨a, 0⟩, rfl, ha, fun E h1 h2 => ?_, hmono _ ha⟩
    rw [abs_div, abs_of_pos ha, div_lt_iff₀ ha] at hr
    have hr' := abs_lt.1 hr
    simp only [Scale.apply, sub_zero]
    rw [lt_div_iff₀ ha, div_lt_iff₀ ha]
    constructor <;> linarith
  · refine ⟨⟨a, b⟩, rfl, ha, fun E h1 h2 => ?_, hmono _ ha⟩
    simp only [Scale.apply]
    rw [lt_div_iff₀ ha, div_lt_iff₀ ha]
    constructor <;> linarith

/-- **C33** (user bounds).  Reversed bounds are rejected; equal bounds mean "compute them". -/
theorem C33_user_bounds {R : Type} [LinearOrder R] (min max : R) :
    (userBounds min max = .err .invalidArgument ↔ max < min) ∧
    (∀ p, userBounds min max = .ok (some p) ↔ p = (min, max) ∧ min < max) := by
  unfold userBounds
  refine ⟨?_, fun p => ?_⟩
  · constructor
    · intro h
      split at h
      · assumption
      · split at h <;> cases h
    · intro h; rw [if_pos h]
  · rcases lt_trichotomy min max with h | h | h
    · rw [if_neg (not_lt.2 h.le), if_neg h.ne]
      simp [h, eq_comm]
    · subst h; simp
    · rw [if_pos h]
      simp [not_lt.2 h.le]

/-- If the bounds coincide (for instance a Hamiltonian that is a multiple of the identity), there is no scale. -/
theorem C33_degenerate {R : Type} [Field R] [LinearOrder R] (e : R) : Scale.ofBounds e e = .ub := by
  unfold Scale.ofBounds
  simp

example : ∃ s, Scale.ofBounds (-3 : ℚ) 3 = .ok s ∧ 0 < s.a ∧ s.b = 0 := ⟨⟨3.03, 0⟩, by
  unfold Scale.ofBounds
  norm_num, by norm_num, rfl⟩

/-! ## C34: the number of moments -/

/-- Specification: numbers of moments that every algorithm variant accepts: at least 2, even (off-diagonal
interleaved, diagonal) and 2 modulo 4 (diagonal interleaved), see C26-C28. -/
def LegalMoments (m : Int) : Prop := 2 ≤ m ∧ m % 2 = 0 ∧ m % 4 = 2

theorem roundLoop_spec (fuel : Nat) (n : Int) (h2 : 2 ≤ n) (hf : 4 ≤ fuel) :
    ∃ r, roundLoop fuel n = some r ∧ n ≤ r ∧ r ≤ n + 3 ∧ r % 4 = 2 := by
  obtain ⟨f, rfl⟩ := Nat.exists_eq_add_of_le hf
  have ht : ∀ k : Int, 0 ≤ k → (n + k - 2).tmod 4 = (n + k - 2) % 4 := fun k hk => Int.tmod_eq_emod_of_nonneg (by omega)
  have key : (n - 2).tmod 4 = (n - 2) % 4 := Int.tmod_eq_emod_of_nonneg (by omega)
  have k1 : (n + 1 - 2).tmod 4 = (n + 1 - 2) % 4 := Int.tmod_eq_emod_of_nonneg (by omega)
  have k2 : (n + 1 + 1 - 2).tmod 4 = (n + 1 + 1 - 2) % 4 := Int.tmod_eq_emod_of_nonneg (by omega)
  have k3 : (n + 1 + 1 + 1 - 2).tmod 4 = (n + 1 + 1 + 1 - 2) % 4 := Int.tmod_eq_emod_of_nonneg (by omega)
  rw [show 4 + f = f + 1 + 1 + 1 + 1 by omega]
  simp only [roundLoop, key, k1, k2, k3]
  split
  · split
    · split
      · split
        · omega
        · exact ⟨_, rfl, by omega, by omega, by omega⟩
      · exact ⟨_, rfl, by omega, by omega, by omega⟩
    · exact ⟨_, rfl, by omega, by omega, by omega⟩
  · exact ⟨_, rfl, by omega, by omega, by omega⟩

/-- **C34**.  For every request (also negative) the loop stops within four steps, and the result is the least legal
number of moments that is at least the request; rounding again changes nothing. -/
theorem C34_rounding (fuel : Nat) (hf : 4 ≤ fuel) (n : Int) :
    ∃ r, roundNumMoments fuel n = some r ∧ n ≤ r ∧ LegalMoments r ∧ (∀ m, LegalMoments m → n ≤ m → r ≤ m) ∧
      roundNumMoments fuel r = some r := by
  unfold roundNumMoments
  by_cases h : n < 2
  · rw [if_pos h]
    refine ⟨2, rfl, by omega, ⟨by omega, by omega, by omega⟩, fun m hm _ => hm.1, ?_⟩
    rw [if_neg (by omega)]
    obtain ⟨r, e, h1, h2, h3⟩ := roundLoop_spec fuel 2 (by omega) hf
    rw [e]; congr 1; omega
  · rw [if_neg h]
    obtain ⟨r, e, h1, h2, h3⟩ := roundLoop_spec fuel n (by omega) hf
    refine ⟨r, e, h1, ⟨by omega, by omega, h3⟩, fun m hm hn => ?_, ?_⟩
    · obtain ⟨m1, m2, m3⟩ := hm
      omega
    · rw [if_neg (by omega)]
      obtain ⟨r', e', h1', h2', h3'⟩ := roundLoop_spec fuel r (by omega) hf
      rw [e']; congr 1; omega

example : roundNumMoments 4 (-5) = some 2 ∧ roundNumMoments 4 7 = some 10 ∧ roundNumMoments 4 10 = some 10 := by decide

/-! ## C52: the requested resolution is reached -/

/-- **C52**.  For a positive broadening, the number of moments `N` chosen by a kernel of width `w` (`pi` for Jackson,
`lambda` for Lorentz) is the least legal number whose resolution `w / N` is finer than the requested one. -/
theorem C52_resolution (fuel : Nat) (hf : 4 ≤ fuel) {w broadening : ℝ} (hw : 0 < w) (hb : 0 < broadening) :
    ∃ N : Int, requiredNumMoments fuel w broadening = .ok (some N) ∧ LegalMoments N ∧ w / N < broadening ∧
      ∀ m : Int, LegalMoments m → w / m < broadening → N ≤ m := by
  have hq : 0 ≤ w / broadening := by positivity
  unfold requiredNumMoments
  rw [if_neg hb.ne']
  simp only [if_pos hq]
  obtain ⟨r, e, h1, h2, h3, -⟩ := C34_rounding fuel hf (⌊w / broadening⌋ + 1)
  rw [e]
  have hr0 : (0 : ℝ) < r := by exact_mod_cast (show (0 : Int) < r by have := h2.1; omega)
  refine ⟨r, rfl, h2, ?_, fun m hm hres => h3 m hm ?_⟩
  · have hlt : w / broadening < r := by
      have h4 := Int.lt_floor_add_one (w / broadening)
      have h5 : ((⌊w / broadening⌋ + 1 : Int) : ℝ) ≤ r := by exact_mod_cast h1
      push_cast at h5
      linarith
    rw [div_lt_iff₀ hb] at hlt
    rw [div_lt_iff₀ hr0]
    linarith
  · have hm0 : (0 : ℝ) < m := by exact_mod_cast (show (0 : Int) < m by have := hm.1; omega)
    rw [div_lt_iff₀ hm0] at hres
    have : w / broadening < m := by rw [div_lt_iff₀ hb]; linarith
    have := Int.floor_lt.2 this
    omega

example : ∃ N : Int, requiredNumMoments 4 4 (1 / 10 : ℝ) = .ok (some N) ∧ LegalMoments N ∧ 4 / (N : ℝ) < 1 / 10 := by
  obtain ⟨N, h1, h2, h3, -⟩ := C52_resolution 4 (le_refl 4) (w := 4) (broadening := 1 / 10) (by norm_num) (by norm_num)
  exact ⟨N, h1, h2, h3⟩

/-! ## C35: indices of the Green's function -/

/-- **C35** (what holds).  Indices below 0 or above the size are rejected, and for all valid indices of a connected
system the calculation is set up without an access out of range.  Missing: the index that equals the size is not
rejected, see `C35_off_by_one`. -/
theorem C35_indices_partial {K : Type} [CommRing K] [DecidableEq K] {n : Nat} {h : Csr K} (hs : Sorted n h) (reorder : Bool)
    (invA b : K) (row : Int) (cols : List Int) (hc : cols ≠ []) :
    ((row < 0 ∨ row > n ∨ ∃ c ∈ cols, c < 0 ∨ c > n) → greensSetup reorder h invA b row cols = .err .logicError) ∧
    ((0 ≤ row ∧ row < n ∧ ∀ c ∈ cols, 0 ≤ c ∧ c < n) →
      (reorder = true → ∀ i : Fin n, Reach h row.toNat i) → ∃ o, greensSetup reorder h invA b row cols = .ok o) := by
  have hl := hs.1
  constructor
  · intro hbad
    unfold greensSetup checkGreens
    rw [if_pos]
    · rfl
    · rw [hl]
      rcases hbad with h1 | h1 | ⟨c, hcm, h1⟩
      · exact .inl (.inl h1)
      · exact .inl (.inr h1)
      · right
        rw [List.any_eq_true]
        exact ⟨c, hcm, by simpa using h1⟩
  · rintro ⟨h1, h2, h3⟩ hr
    unfold greensSetup checkGreens
    rw [if_neg]
    · rw [Res.bind_ok]
      by_cases hre : reorder = true
      · rw [if_pos hre]
        have hlt : ∀ c : {c // c ∈ cols}, c.1.toNat < n := fun c => by have := h3 c.1 c.2; omega
        let dest : List (Fin n) := cols.attach.map fun c => ⟨c.1.toNat, hlt c⟩
        have hdest : dest.map (·.val) = cols.map Int.toNat := by
          simp only [dest]
          rw [List.map_map]
          simp
        have hrow : row.toNat < n := by omega
        obtain ⟨o, σ, e, -⟩ := createReordered_ok hs invA b ⟨row.toNat, hrow⟩ []
          dest (by simpa [dest] using hc) (hr hre)
        rw [hdest] at e
        exact ⟨o, e⟩
      · rw [if_neg hre, if_pos]
        · exact ⟨_, rfl⟩
        · refine ⟨by omega, ?_⟩
          rw [List.all_eq_true]
          intro c hcm
          have := h3 c hcm
          simp only [decide_eq_true_eq]
          omega
    · rw [hl]
      rintro (h4 | h4)
      · omega
      · rw [List.any_eq_true] at h4
        obtain ⟨c, hcm, h5⟩ := h4
        have := h3 c hcm
        simp at h5
        omega

/-- **C35** (finding).  A row index equal to the size of the Hamiltonian is accepted, and then memory outside the
arrays is accessed: for every Hamiltonian, with and without reordering. -/
theorem C35_off_by_one {K : Type} [CommRing K] [DecidableEq K] (h : Csr K) (reorder : Bool) (invA b : K)
    (cols : List Int) (hcols : ∀ c ∈ cols, 0 ≤ c ∧ c < h.length) :
    checkGreens h.length h.length cols = .ok () ∧ greensSetup reorder h invA b h.length cols = .ub := by
  have hchk : checkGreens h.length h.length cols = .ok () := by
    unfold checkGreens
    rw [if_neg]
    rintro (h4 | h4)
    · omega
    · rw [List.any_eq_true] at h4
      obtain ⟨c, hcm, h5⟩ := h4
      have := hcols c hcm
      simp at h5
      omega
  refine ⟨hchk, ?_⟩
  unfold greensSetup
  rw [hchk, Res.bind_ok]
  cases reorder with
  | true =>
    rw [if_pos rfl]
    unfold createReordered wr
    simp [rd]
  | false => simp

/-- The same for a column: index `size` passes the check. -/
theorem C35_off_by_one_column {K : Type} [CommRing K] [DecidableEq K] (h : Csr K) (invA b : K) (row : Int)
    (hrow : 0 ≤ row ∧ row < h.length) :
    checkGreens h.length row [(h.length : Int)] = .ok () ∧ greensSetup false h invA b row [(h.length : Int)] = .ub := by
  have hchk : checkGreens h.length row [(h.length : Int)] = .ok () := by
    unfold checkGreens
    rw [if_neg]
    rintro (h4 | h4)
    · omega
    · simp at h4
      omega
  refine ⟨hchk, ?_⟩
  unfold greensSetup
  rw [hchk, Res.bind_ok]
  simp

example : ∃ o, greensSetup true ring4 1 7 2 [0, 1] = .ok o :=
  (C35_indices_partial (n := 4) ring4_sorted true 1 7 2 [0, 1] (by decide)).2 (by decide) (fun _ => ring4_reach)

/-! ## C36: direction of the conductivity -/

theorem contains_iff (c : Char) : ("xyz".toList).contains c = true ↔ c = 'x' ∨ c = 'y' ∨ c = 'z' := by
  simp

/-- **C36** (what holds).  The two letters over x, y, z are accepted; strings of another length, and strings without
any of these letters, are rejected.  Missing: a string with only one of the letters is not rejected, see
`C36_half_valid`. -/
theorem C36_directions_partial (direction : String) :
    (∀ c e, (c = 'x' ∨ c = 'y' ∨ c = 'z') → (e = 'x' ∨ e = 'y' ∨ e = 'z') → direction.toList = [c, e] →
      conductivityDirections direction = .ok (c, e)) ∧
    ((direction.toList.length ≠ 2 ∨ ∀ c ∈ direction.toList, ¬ (c = 'x' ∨ c = 'y' ∨ c = 'z')) →
      conductivityDirections direction = .err .logicError) := by
  unfold conductivityDirections
  simp only
  constructor
  · intro c e hc he hd
    rw [hd]
    have h1 := (contains_iff c).2 hc
    have h2 := (contains_iff e).2 he
    rw [if_neg]
    · simp only [h1, h2, and_self, if_true]
    · rintro (h | h)
      · simp at h
      · unfold findFirstOf at h
        rw [List.any_eq_false] at h
        exact h c (List.contains_iff_mem.1 h1) (by simp)
  · intro h
    rw [if_pos]
    rcases h with h | h
    · exact .inl h
    · right
      unfold findFirstOf
      rw [List.any_eq_false]
      intro x hx hcx
      have h1 := List.contains_iff_mem.1 hcx
      exact h x h1 ((contains_iff x).1 (List.contains_iff_mem.2 hx))

/-- **C36** (finding).  Every two-letter string with exactly one of x, y, z passes the check and dereferences a null
pointer. -/
theorem C36_half_valid (direction : String) (c e : Char) (hd : direction.toList = [c, e])
    (h : ((c = 'x' ∨ c = 'y' ∨ c = 'z') ∧ ¬ (e = 'x' ∨ e = 'y' ∨ e = 'z')) ∨
      (¬ (c = 'x' ∨ c = 'y' ∨ c = 'z') ∧ (e = 'x' ∨ e = 'y' ∨ e = 'z'))) :
    conductivityDirections direction = .ub := by
  unfold conductivityDirections
  simp only
  rw [hd]
  have hany : findFirstOf "xyz".toList [c, e] = true := by
    unfold findFirstOf
    rw [List.any_eq_true]
    rcases h with ⟨h1, -⟩ | ⟨-, h1⟩
    · exact ⟨c, List.contains_iff_mem.1 ((contains_iff c).2 h1), by simp⟩
    · exact ⟨e, List.contains_iff_mem.1 ((contains_iff e).2 h1), by simp⟩
  rw [if_neg]
  · show (if _ then _ else _) = _
    rw [if_neg]
    rintro ⟨h1, h2⟩
    have h1 := (contains_iff c).1 h1
    have h2 := (contains_iff e).1 h2
    tauto
  · rintro (h | h)
    · simp at h
    · rw [hany] at h; cases h

example : conductivityDirections "xa" = .ub := C36_half_valid "xa" 'x' 'a' rfl (by decide)
example : conductivityDirections "xz" = .ok ('x', 'z') := (C36_directions_partial "xz").1 'x' 'z' (by decide) (by decide) rfl

/-! ## C43: the velocity operator -/

section velocity

variable {K : Type} {n : Nat}

theorem mapM_res {α β : Type} (f : α → Res β) (g : α → β) (l : List α) (h : ∀ a ∈ l, f a = .ok (g a)) :
    l.mapM f = .ok (l.map g) := by
  induction l with
  | nil => rfl
  | cons a l ih =>
    rw [List.mapM_cons, h a List.mem_cons_self, ih fun a ha => h a (List.mem_cons_of_mem _ ha)]
    rfl

theorem velocity_rows [CommRing K] (x : Fin n → K) {h : Csr K} (hs : Sorted n h) :
    velocity (List.ofFn x) h = .ok (h.zipIdx.map fun p => p.1.map fun e =>
      (e.1, e.2 * ((List.ofFn x).getD p.2 0 - (List.ofFn x).getD e.1 0))) := by
  unfold velocity
  refine mapM_res _ _ _ fun p hp => mapM_res _ _ _ fun e he => ?_
  have hrd : ∀ i < n, rd (List.ofFn x) i = .ok ((List.ofFn x).getD i 0) := by
    intro i hi
    unfold rd
    rw [List.getD_eq_getElem?_getD, List.getElem?_ofFn, dif_pos hi]
    rfl
  obtain ⟨r, i⟩ := p
  have hi := List.mem_zipIdx' hp
  have hil : i < n := by have := hs.1; omega
  have hr : r ∈ h := by rw [hi.2]; exact List.getElem_mem _
  rw [hrd i hil, Res.bind_ok, hrd e.1 ((hs.2 r hr).2 e he), Res.bind_ok]
  rfl

/-- **C43** (elements).  For every Hamiltonian and coordinates of the same size the velocity operator exists, stores
elements at exactly the same places, and is `V_ij = H_ij (x_i - x_j)`: the commutator of the coordinate with the
Hamiltonian. -/
theorem C43_commutator [CommRing K] (x : Fin n → K) {h : Csr K} (hs : Sorted n h) :
    ∃ v, velocity (List.ofFn x) h = .ok v ∧ Sorted n v ∧ v.map (fun r => r.map (·.1)) = h.map (fun r => r.map (·.1)) ∧
      (∀ i j, matrixOf n v i j = matrixOf n h i j * (x i - x j)) ∧
      matrixOf n v = Matrix.diagonal x * matrixOf n h - matrixOf n h * Matrix.diagonal x := by
  refine ⟨_, velocity_rows x hs, ?_, ?_, ?_⟩
  · have hkeys : (h.zipIdx.map fun p => p.1.map fun e =>
        (e.1, e.2 * ((List.ofFn x).getD p.2 0 - (List.ofFn x).getD e.1 0))).map (fun r => r.map (·.1)) = h.map (fun r => r.map (·.1)) := by
      rw [List.map_map]
      have : ((fun r : List (Nat × K) => r.map (·.1)) ∘ fun p : List (Nat × K) × Nat => p.1.map fun e =>
          (e.1, e.2 * ((List.ofFn x).getD p.2 0 - (List.ofFn x).getD e.1 0))) = (fun r => r.map (·.1)) ∘ Prod.fst := by
        funext p
        simp only [Function.comp_apply, List.map_map]
        rfl
      rw [this, ← List.map_map, List.zipIdx_map_fst]
    refine ⟨by simp [hs.1], fun r hr => ?_⟩
    have hm : r.map (·.1) ∈ h.map (fun r => r.map (·.1)) := by
      rw [← hkeys]; exact List.mem_map.2 ⟨r, hr, rfl⟩
    obtain ⟨r', hr', e⟩ := List.mem_map.1 hm
    obtain ⟨h1, h2⟩ := hs.2 r' hr'
    refine ⟨by rw [← e]; exact h1, fun z hz => ?_⟩
    have : z.1 ∈ r'.map (·.1) := by rw [e]; exact List.mem_map.2 ⟨z, hz, rfl⟩
    obtain ⟨z', hz', e'⟩ := List.mem_map.1 this
    rw [← e']; exact h2 z' hz'
  · rw [List.map_map]
    have : ((fun r : List (Nat × K) => r.map (·.1)) ∘ fun p : List (Nat × K) × Nat => p.1.map fun e =>
        (e.1, e.2 * ((List.ofFn x).getD p.2 0 - (List.ofFn x).getD e.1 0))) = (fun r => r.map (·.1)) ∘ Prod.fst := by
      funext p
      simp only [Function.comp_apply, List.map_map]
      rfl
    rw [this, ← List.map_map, List.zipIdx_map_fst]
  · have hel : ∀ i j, matrixOf n (h.zipIdx.map fun p => p.1.map fun e =>
        (e.1, e.2 * ((List.ofFn x).getD p.2 0 - (List.ofFn x).getD e.1 0))) i j = matrixOf n h i j * (x i - x j) := by
      intro i j
      have hget : ∀ i : Fin n, (List.ofFn x).getD i.val 0 = x i := by
        intro i
        rw [List.getD_eq_getElem?_getD, List.getElem?_ofFn, dif_pos i.isLt]
        rfl
      have hi : i.val < h.length := by rw [hs.1]; exact i.isLt
      unfold matrixOf
      rw [Hamiltonian.coeff_eq, Hamiltonian.coeff_eq]
      have : (h.zipIdx.map fun p => p.1.map fun e =>
          (e.1, e.2 * ((List.ofFn x).getD p.2 0 - (List.ofFn x).getD e.1 0))).getD i.val [] =
          (h.getD i.val []).map fun e => (e.1, e.2 * ((List.ofFn x).getD i.val 0 - (List.ofFn x).getD e.1 0)) := by
        rw [List.getD_eq_getElem?_getD, List.getD_eq_getElem?_getD]
        simp [hi]
      rw [this]
      generalize h.getD i.val [] = r
      induction r with
      | nil => simp [Hamiltonian.rowCoeff]
      | cons e r ih =>
        rw [List.map_cons, Hamiltonian.rowCoeff_cons, Hamiltonian.rowCoeff_cons, ih]
        simp only
        by_cases he : e.1 = j.val
        · rw [if_pos he, if_pos he, he, hget, hget]; ring
        · rw [if_neg he, if_neg he]; ring
    refine ⟨hel, ?_⟩
    ext i j
    rw [hel]
    simp only [Matrix.sub_apply, Matrix.diagonal_mul, Matrix.mul_diagonal]
    ring

/-- **C43**.  For a Hermitian Hamiltonian and real coordinates the velocity operator is anti-Hermitian with zero
diagonal, and it is additive in the coordinates. -/
theorem C43_antihermitian [CommRing K] [StarRing K] (x y : Fin n → K) (hx : ∀ i, star (x i) = x i) {h : Csr K} (hs : Sorted n h)
    (hh : (matrixOf n h).IsHermitian) :
    ∃ v w s, velocity (List.ofFn x) h = .ok v ∧ velocity (List.ofFn y) h = .ok w ∧
      velocity (List.ofFn fun i => x i + y i) h = .ok s ∧
      (matrixOf n v).conjTranspose = -matrixOf n v ∧ (∀ i, matrixOf n v i i = 0) ∧
      matrixOf n s = matrixOf n v + matrixOf n w := by
  obtain ⟨v, ev, -, -, hv, -⟩ := C43_commutator x hs
  obtain ⟨w, ew, -, -, hw, -⟩ := C43_commutator y hs
  obtain ⟨s, es, -, -, hs', -⟩ := C43_commutator (fun i => x i + y i) hs
  refine ⟨v, w, s, ev, ew, es, ?_, ?_, ?_⟩
  · ext i j
    rw [Matrix.conjTranspose_apply, Matrix.neg_apply, hv, hv, star_mul', star_sub, hx, hx]
    have := hh.apply i j
    rw [this]
    ring
  · intro i; rw [hv]; ring
  · ext i j
    rw [Matrix.add_apply, hs', hv, hw]; ring

example : ∃ v, velocity (List.ofFn ![(0 : Int), 1, 2, 3]) ring4 = .ok v ∧ (matrixOf 4 v).conjTranspose = -matrixOf 4 v := by
  obtain ⟨v, w, s, e, -, -, h, -⟩ := C43_antihermitian (n := 4) ![(0 : Int), 1, 2, 3] ![0, 0, 0, 0] (fun _ => rfl) ring4_sorted
    (by ext i j; fin_cases i <;> fin_cases j <;> rfl)
  exact ⟨v, e, h⟩

end velocity

end Verif.Kpm
