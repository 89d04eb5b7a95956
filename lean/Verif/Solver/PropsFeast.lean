import Verif.Solver.Feast
import Verif.Numeric.Spec
import Mathlib.Tactic.Linarith
import Mathlib.Tactic.Ring

/-!
# C71: FEAST corrects the size of the subspace
-/

namespace Verif.Feast

open Verif.Numeric

variable {K R : Type}

/-! ## Specification of the library -/

/-- The library may be called with this subspace size. -/
def Call.Legal (c : Call K R) : Prop := 0 < c.m0 ∧ c.m0 ≤ c.problem.size

/-- What the documentation of the library promises for legal calls.  `count` is the number of eigenvalues in the interval.
Code 0 is success, 1 means that there is none, and 3 means that the subspace is too small. -/
structure Documented (lib : Lib K R) (count : Problem K R → Nat) : Prop where
  count_le : ∀ p, count p ≤ p.size
  values : ∀ t c, c.Legal → (lib t c).values.length ≤ c.m0.toNat
  residual : ∀ t c, c.Legal → (lib t c).residual.length ≤ c.m0.toNat
  vectors : ∀ t c, c.Legal → (lib t c).vectors.length ≤ c.problem.size * c.m0.toNat
  m0_pos : ∀ t c, c.Legal → 0 < (lib t c).m0
  m0_le : ∀ t c, c.Legal → (lib t c).m0 ≤ c.m0
  success : ∀ t c, c.Legal → (lib t c).code = 0 → 0 < (lib t c).final ∧ (lib t c).final = count c.problem ∧
    (lib t c).final ≤ (lib t c).values.length ∧
    c.problem.size * (lib t c).final.toNat ≤ (lib t c).vectors.length
  none : ∀ t c, c.Legal → (lib t c).code = 1 → count c.problem = 0 ∧ (lib t c).final = 0
  tooSmall : ∀ t c, c.Legal → (lib t c).code = 3 → c.m0 < count c.problem

/-- Column `j` of the eigenvectors written by the library: they are stored one after another. -/
def Reply.vector (r : Reply K R) (n j : Nat) : List K := (r.vectors.drop (j * n)).take n

/-- The results which a user sees after `solve` are those of a successful call of the library for the problem `p`. -/
def Solved (lib : Lib K R) (p : Problem K R) (s : State K R) : Prop :=
  ∃ t c, c.problem = p ∧ c.Legal ∧ (lib t c).code = 0 ∧
    s.eigenvalues = .ok ((lib t c).values.take (lib t c).final.toNat) ∧
    s.eigenvectors = .ok ((List.range (lib t c).final.toNat).map ((lib t c).vector p.size))

/-- The buffers are either empty or fit to matrices of `n` rows. -/
def Fit (n : Nat) (s : State K R) : Prop :=
  s.cfg.guess ≠ 0 ∧
  ((s.values = [] ∧ s.residual = [] ∧ s.vectors = []) ∨
   (s.values.length = s.cfg.guess.toNat ∧ s.residual.length = s.cfg.guess.toNat ∧ s.vectors.length = n * s.cfg.guess.toNat ∧
     s.vecRows = n ∧ 0 < s.suggested ∧ s.suggested ≤ s.cfg.guess ∧ s.cfg.guess ≤ n))

/-- A subspace size of at most `n`: what is used of a guess. -/
def clamp (n : Nat) (g : Int) : Int := if g > n ∨ g < 0 then (n : Int) else g

theorem length_write {α : Type} (buf data : List α) : (write buf data).length = buf.length := by
  simp [write]; omega

theorem take_write {α : Type} {buf data : List α} (h : data.length ≤ buf.length) {k : Nat} (hk : k ≤ data.length) :
    (write buf data).take k = data.take k := by
  unfold write
  rw [List.take_of_length_le h, List.take_append_of_le_length hk]

theorem column_write {α : Type} {buf data : List α} (h : data.length ≤ buf.length) {n j : Nat} (hk : (j + 1) * n ≤ data.length) :
    ((write buf data).drop (j * n)).take n = (data.drop (j * n)).take n := by
  have : (write buf data).take ((j + 1) * n) = data.take ((j + 1) * n) := take_write h hk
  have e : (j + 1) * n = j * n + n := by ring
  rw [e] at this
  have h2 := congrArg (List.drop (j * n)) this
  rw [List.drop_take, List.drop_take] at h2
  simpa using h2

variable [Inhabited K] [Inhabited R]

theorem prepare_empty {s : State K R} (h1 : s.values = []) (h2 : s.residual = []) (h3 : s.vectors = []) :
    s.prepare = { s with
      cfg := { s.cfg with guess := clamp s.ham.rows s.cfg.guess }
      values := List.replicate (clamp s.ham.rows s.cfg.guess).toNat default
      suggested := clamp s.ham.rows s.cfg.guess
      residual := List.replicate (clamp s.ham.rows s.cfg.guess).toNat default
      vecRows := s.ham.rows
      vectors := List.replicate (s.ham.rows * (clamp s.ham.rows s.cfg.guess).toNat) default } := by
  unfold State.prepare clamp
  simp [h1, h2, h3]

theorem prepare_full {s : State K R} (h1 : s.values.length ≠ 0) (h2 : s.residual.length ≠ 0) (h3 : s.vectors.length ≠ 0) :
    s.prepare = s := by
  unfold State.prepare
  simp only [if_neg h1, if_neg h2, if_neg h3]

/-- A call of the library with buffers of the right sizes. -/
theorem invoke_spec {lib : Lib K R} {count : Problem K R → Nat} (hd : Documented lib count) {s : State K R} (reuse : Bool)
    (hg : 0 < s.suggested) (hle : s.suggested ≤ s.cfg.guess) (hn : s.cfg.guess ≤ s.ham.rows)
    (h1 : s.values.length = s.cfg.guess.toNat) (h2 : s.residual.length = s.cfg.guess.toNat)
    (h3 : s.vectors.length = s.ham.rows * s.cfg.guess.toNat) (h4 : s.vecRows = s.ham.rows) :
    ∃ s', s.invoke lib reuse = .done s' ∧ (s.args reuse).Legal ∧
      Fit s.ham.rows s' ∧ s'.values ≠ [] ∧ s'.ham = s.ham ∧ s'.cfg = s.cfg ∧
      s'.suggested = (lib s.calls (s.args reuse)).m0 ∧ s'.code = (lib s.calls (s.args reuse)).code ∧
      s'.loops = (lib s.calls (s.args reuse)).loops ∧
      s'.final = (lib s.calls (s.args reuse)).final ∧ s'.calls = s.calls + 1 ∧
      s'.recycleLoops = s.recycleLoops ∧ s'.recycleWarning = s.recycleWarning ∧
      (s'.code = 0 → Solved lib (problem s.ham s.cfg) s' ∧ 0 < s'.final ∧ s'.final ≤ s'.residual.length) := by
  have hlegal : (s.args reuse).Legal := ⟨hg, by show s.suggested ≤ s.ham.rows; omega⟩
  have hmul : s.ham.rows * s.suggested.toNat ≤ s.vectors.length := by
    rw [h3]; exact Nat.mul_le_mul_left _ (by omega)
  have hc : s.suggested.toNat ≤ s.values.length ∧ s.suggested.toNat ≤ s.residual.length ∧
      s.ham.rows * s.suggested.toNat ≤ s.vectors.length := ⟨by omega, by omega, hmul⟩
  have hm1 := hd.m0_pos s.calls _ hlegal
  have hm2 := hd.m0_le s.calls _ hlegal
  have hv := hd.values s.calls _ hlegal
  have hw := hd.vectors s.calls _ hlegal
  have hs := fun h => (hd.success s.calls _ hlegal h).imp_right And.right
  have ea : (s.args reuse).m0 = s.suggested := rfl
  have ep : (s.args reuse).problem = problem s.ham s.cfg := rfl
  have es : (s.args reuse).problem.size = s.ham.rows := rfl
  rw [ea] at hm2 hv hw
  rw [es] at hw hs
  have hinv : s.invoke lib reuse = .done { s with
      values := write s.values (lib s.calls (s.args reuse)).values
      vectors := write s.vectors (lib s.calls (s.args reuse)).vectors
      residual := write s.residual (lib s.calls (s.args reuse)).residual
      suggested := (lib s.calls (s.args reuse)).m0
      final := (lib s.calls (s.args reuse)).final
      loops := (lib s.calls (s.args reuse)).loops
      code := (lib s.calls (s.args reuse)).code
      calls := s.calls + 1 } := by
    unfold State.invoke
    exact if_pos hc
  refine ⟨_, hinv, hlegal, ?_, ?_, rfl, rfl, rfl, rfl, rfl, rfl, rfl, rfl, rfl, ?_⟩
  · refine ⟨by show s.cfg.guess ≠ 0; omega, Or.inr ⟨?_, ?_, ?_, h4, hm1, hm2.trans hle, hn⟩⟩
    · simpa [length_write] using h1
    · simpa [length_write] using h2
    · simpa [length_write] using h3
  · intro h
    have := congrArg List.length h
    simp [length_write] at this
    rw [this] at h1
    simp at h1
    omega
  · intro hcode
    obtain ⟨f1, f2, f3⟩ := hs hcode
    refine ⟨⟨s.calls, s.args reuse, ep, hlegal, hcode, ?_, ?_⟩, f1, ?_⟩
    · unfold State.eigenvalues
      simp only [length_write]
      rw [if_pos ⟨by omega, by omega⟩, take_write (by omega) (by omega)]
    · unfold State.eigenvectors
      simp only [length_write, h4]
      rw [if_pos ⟨by omega, by omega⟩]
      congr 1
      apply List.map_congr_left
      intro j hj
      rw [List.mem_range] at hj
      rw [column_write (by omega)]
      · rfl
      · refine le_trans ?_ f3
        rw [Nat.mul_comm]
        exact Nat.mul_le_mul_left _ hj
    · simp only [length_write]
      omega

/-- One call of the library. -/
theorem call_spec {lib : Lib K R} {count : Problem K R → Nat} (hd : Documented lib count)
    {s : State K R} (hn : 0 < s.ham.rows) (hf : Fit s.ham.rows s) :
    ∃ s' c, s.call lib = .done s' ∧ c.problem = problem s.ham s.cfg ∧ c.Legal ∧
      c.m0 = (if s.values = [] then clamp s.ham.rows s.cfg.guess else s.suggested) ∧
      Fit s.ham.rows s' ∧ s'.values ≠ [] ∧ s'.ham = s.ham ∧
      s'.cfg = { s.cfg with guess := if s.values = [] then clamp s.ham.rows s.cfg.guess else s.cfg.guess } ∧
      s'.suggested = (lib s.calls c).m0 ∧ s'.code = (lib s.calls c).code ∧ s'.loops = (lib s.calls c).loops ∧
      s'.final = (lib s.calls c).final ∧ s'.calls = s.calls + 1 ∧
      s'.recycleLoops = s.recycleLoops ∧ s'.recycleWarning = s.recycleWarning ∧
      (s'.code = 0 → Solved lib (problem s.ham s.cfg) s' ∧ 0 < s'.final ∧ s'.final ≤ s'.residual.length) := by
  obtain ⟨h0, h | h⟩ := hf
  · obtain ⟨h1, h2, h3⟩ := h
    have hcl : 0 < clamp s.ham.rows s.cfg.guess ∧ clamp s.ham.rows s.cfg.guess ≤ s.ham.rows := by
      unfold clamp; split <;> omega
    unfold State.call
    simp only [prepare_empty h1 h2 h3, h1, if_true]
    generalize hP : ({ s with
      cfg := { s.cfg with guess := clamp s.ham.rows s.cfg.guess }
      values := List.replicate (clamp s.ham.rows s.cfg.guess).toNat default
      suggested := clamp s.ham.rows s.cfg.guess
      residual := List.replicate (clamp s.ham.rows s.cfg.guess).toNat default
      vecRows := s.ham.rows
      vectors := List.replicate (s.ham.rows * (clamp s.ham.rows s.cfg.guess).toNat) default } : State K R) = P
    have e1 : P.ham = s.ham := by rw [← hP]
    have e2 : P.cfg = { s.cfg with guess := clamp s.ham.rows s.cfg.guess } := by rw [← hP]
    have e3 : P.suggested = clamp s.ham.rows s.cfg.guess := by rw [← hP]
    have e4 : P.calls = s.calls := by rw [← hP]
    have e5 : P.recycleLoops = s.recycleLoops := by rw [← hP]
    have e6 : P.recycleWarning = s.recycleWarning := by rw [← hP]
    have eg : P.cfg.guess = clamp s.ham.rows s.cfg.guess := by rw [e2]
    have ep : problem P.ham P.cfg = problem s.ham s.cfg := by rw [e1, e2]; rfl
    obtain ⟨s', r1, r2, r3, r4, r5, r6, r7, r8, r9, r10, r11, r12, r13, r14⟩ :=
      invoke_spec hd (s := P) (s.cfg.recycle && decide (([] : List R).length ≠ 0)) (by omega) (by omega)
      (by rw [e1]; omega) (by rw [eg, ← hP]; simp) (by rw [eg, ← hP]; simp) (by rw [eg, e1, ← hP]; simp) (by rw [← hP])
    rw [e1] at r3 r5
    rw [e2] at r6
    rw [ep] at r14
    rw [e4] at r7 r8 r9 r10 r11
    exact ⟨s', _, r1, ep, r2, e3, r3, r4, r5, r6, r7, r8, r9, r10, r11, r12.trans e5, r13.trans e6, r14⟩
  · obtain ⟨h1, h2, h3, h4, h5, h6, h7⟩ := h
    have hne : s.values ≠ [] := by
      intro h; rw [h] at h1; simp at h1; omega
    unfold State.call
    rw [prepare_full (by omega) (by omega) (by rw [h3]; exact Nat.mul_ne_zero (by omega) (by omega))]
    simp only [if_neg hne]
    obtain ⟨s', r1, r2, r3, r4, r5, r6, r7, r8, r9, r10, r11, r12, r13, r14⟩ :=
      invoke_spec hd (s := s) (s.cfg.recycle && decide (s.values.length ≠ 0)) h5 h6 h7 h1 h2 h3 h4
    exact ⟨s', _, r1, rfl, r2, rfl, r3, r4, r5, r6, r7, r8, r9, r10, r11, r12, r13, r14⟩

theorem grow_spec {g : Int} {n : Nat} (h0 : 0 < g) (hg : g ≤ n) (hn : 17 * n < 21474836480) :
    ∃ g', grow g = some g' ∧ g ≤ g' ∧ (g < g' ∨ g = 1) ∧ (g = 1 → g' = 1) := by
  unfold grow
  have e : (17 * g).tdiv 10 = 17 * g / 10 := Int.tdiv_eq_ediv_of_nonneg (by omega)
  refine ⟨17 * g / 10, ?_, by omega, by omega, by omega⟩
  simp only [e]
  rw [if_pos (by omega)]

/-- Starting again with an empty subspace. -/
theorem retry_spec {lib : Lib K R} {count : Problem K R → Nat} (hd : Documented lib count)
    {s : State K R} (hf : Fit s.ham.rows s) (hne : s.values ≠ []) (hn : 17 * s.ham.rows < 21474836480) (bigger : Bool) :
    ∃ s' c, s.retry lib bigger = .done s' ∧ c.problem = problem s.ham s.cfg ∧ c.Legal ∧ c.m0 = s'.cfg.guess ∧
      s.cfg.guess ≤ s'.cfg.guess ∧ (bigger = true → s.cfg.guess < s'.cfg.guess ∨ s.cfg.guess = 1 ∨ s'.cfg.guess = s.ham.rows) ∧
      (s.cfg.guess = 1 → s'.cfg.guess = 1) ∧
      Fit s.ham.rows s' ∧ s'.values ≠ [] ∧ s'.ham = s.ham ∧
      s'.cfg = { s.cfg with guess := s'.cfg.guess } ∧
      s'.suggested = (lib s.calls c).m0 ∧ s'.code = (lib s.calls c).code ∧ s'.loops = (lib s.calls c).loops ∧
      s'.final = (lib s.calls c).final ∧ s'.calls = s.calls + 1 ∧
      s'.recycleLoops = s.recycleLoops ∧ s'.recycleWarning = s.recycleWarning ∧
      (s'.code = 0 → Solved lib (problem s.ham s.cfg) s' ∧ 0 < s'.final ∧ s'.final ≤ s'.residual.length) := by
  obtain ⟨h0, h | h⟩ := hf
  · exact absurd h.1 hne
  obtain ⟨h1, h2, h3, h4, h5, h6, h7⟩ := h
  have hpos : 0 < s.cfg.guess := by omega
  have key : ∃ g', s.cfg.guess ≤ g' ∧ (bigger = true → s.cfg.guess < g' ∨ s.cfg.guess = 1) ∧ (s.cfg.guess = 1 → g' = 1) ∧
      s.retry lib bigger = ({ s with cfg := { s.cfg with guess := g' } } : State K R).clear.call lib := by
    cases bigger with
    | false => exact ⟨s.cfg.guess, le_refl _, by simp, id, by simp [State.retry]⟩
    | true =>
      obtain ⟨g', e, l, lt, l1⟩ := grow_spec hpos h7 hn
      exact ⟨g', l, fun _ => lt, l1, by simp [State.retry, e]⟩
  obtain ⟨g', l, lt, l1, e⟩ := key
  rw [e]
  generalize hP : ({ s with cfg := { s.cfg with guess := g' } } : State K R).clear = P
  have e1 : P.ham = s.ham := by rw [← hP]; rfl
  have e2 : P.cfg = { s.cfg with guess := g' } := by rw [← hP]; rfl
  have e3 : P.values = [] := by rw [← hP]; rfl
  have e4 : P.calls = s.calls := by rw [← hP]; rfl
  have e5 : P.recycleLoops = s.recycleLoops := by rw [← hP]; rfl
  have e6 : P.recycleWarning = s.recycleWarning := by rw [← hP]; rfl
  have ep : problem P.ham P.cfg = problem s.ham s.cfg := by rw [e1, e2]; rfl
  have eg : P.cfg.guess = g' := by rw [e2]
  obtain ⟨s', c, r1, r2, r3, r4, r5, r6, r7, r8, r9, r10, r11, r12, r13, r14, r15, r16⟩ :=
    call_spec hd (s := P) (by rw [e1]; omega) ⟨by omega, Or.inl ⟨e3, by rw [← hP]; rfl, by rw [← hP]; rfl⟩⟩
  rw [if_pos e3] at r4 r8
  rw [e1] at r4 r5 r7 r8
  rw [ep] at r2 r16
  rw [e4] at r9 r10 r11 r12 r13
  rw [eg] at r4 r8
  have hg' : s'.cfg.guess = clamp s.ham.rows g' := by rw [r8]
  have hcl : clamp s.ham.rows g' = if g' > s.ham.rows then (s.ham.rows : Int) else g' := by
    unfold clamp
    by_cases h : g' > s.ham.rows
    · rw [if_pos (Or.inl h), if_pos h]
    · rw [if_neg (by omega), if_neg h]
  refine ⟨s', c, r1, r2, r3, r4.trans hg'.symm, ?_, ?_, ?_, r5, r6, r7, ?_, r9, r10, r11, r12, r13, r14.trans e5, r15.trans e6, r16⟩
  · rw [hg', hcl]; split <;> omega
  · intro hb
    have := lt hb
    rw [hg', hcl]; split <;> omega
  · intro h1
    have := l1 h1
    rw [hg', hcl]; split <;> omega
  · rw [hg', r8, e2]

/-- How `solve` may end: the results are those of the library for this problem; or an exception is thrown after the
library reported an error; or there are no eigenvalues. -/
def Good (lib : Lib K R) (count : Problem K R → Nat) (p : Problem K R) (limit : Nat) : Out (State K R) → Prop
  | .done s => Solved lib p s ∧ Fit p.size s ∧ s.calls ≤ limit ∧ 0 < count p
  | .threw s e => e = .runtimeError ∧ Fit p.size s ∧ s.calls ≤ limit ∧
      ∃ t c, c.problem = p ∧ c.Legal ∧ (lib t c).code ∉ [0, 1, 3]
  | .undefined => count p = 0
  | .running => False

/-- What the loop for a small subspace does. -/
def LoopGood (lib : Lib K R) (s : State K R) (limit : Nat) : Out (State K R) → Prop
  | .done s' => Fit s.ham.rows s' ∧ s'.calls ≤ limit ∧ s'.code = 0 ∧ Solved lib (problem s.ham s.cfg) s' ∧ 0 < s'.final ∧
      s'.final ≤ s'.residual.length
  | .threw s' e => e = .runtimeError ∧ Fit s.ham.rows s' ∧ s'.calls ≤ limit ∧
      ∃ t c, c.problem = problem s.ham s.cfg ∧ c.Legal ∧ (lib t c).code ∉ [0, 1, 3]
  | .undefined => False
  | .running => False

theorem sizeLoop_spec {lib : Lib K R} {count : Problem K R → Nat} (hd : Documented lib count) (fuel : Nat)
    {s : State K R} (hf : Fit s.ham.rows s) (hne : s.values ≠ []) (hn : 17 * s.ham.rows < 21474836480)
    (one : s.cfg.guess = 1 → count (problem s.ham s.cfg) ≤ 1) (hcount : 0 < count (problem s.ham s.cfg))
    (hcode : s.code = 0 ∨ s.code = 3)
    (hok : s.code = 0 → Solved lib (problem s.ham s.cfg) s ∧ 0 < s.final ∧ s.final ≤ s.residual.length)
    (hfuel : s.code = 3 → (s.ham.rows - s.cfg.guess).toNat + 1 ≤ fuel) :
    LoopGood lib s (s.calls + ((s.ham.rows - s.cfg.guess).toNat + 1)) (sizeLoop lib fuel s) := by
  induction fuel generalizing s with
  | zero =>
    have h0 : s.code = 0 := by
      rcases hcode with h | h
      · exact h
      · have := hfuel h; omega
    unfold sizeLoop
    rw [if_neg (by omega)]
    exact ⟨hf, by omega, h0, hok h0⟩
  | succ fuel ih =>
    rcases hcode with h0 | h3
    · unfold sizeLoop
      rw [if_neg (by omega)]
      exact ⟨hf, by omega, h0, hok h0⟩
    · unfold sizeLoop
      rw [if_pos h3]
      obtain ⟨s', c, r1, r2, r3, r4, r5, r5', r5'', r6, r7, r8, r9, r10, r11, r12, r13, r14, r15, r16, r17⟩ :=
        retry_spec hd hf hne hn true
      have ep : problem s'.ham s'.cfg = problem s.ham s.cfg := by rw [r8, r9]; rfl
      have hbody : s.sizeBody lib = if s'.code ≠ 3 ∧ s'.code ≠ 0 then .threw s' .runtimeError else .done s' := by
        unfold State.sizeBody
        rw [r1]
      simp only [hbody]
      have hbig := r5' rfl
      by_cases hc : s'.code ≠ 3 ∧ s'.code ≠ 0
      · rw [if_pos hc]
        refine ⟨rfl, r6, by omega, s.calls, c, r2, r3, ?_⟩
        have h1 : (lib s.calls c).code ≠ 1 := by
          intro h
          have := (hd.none _ _ r3 h).1
          rw [r2] at this
          omega
        rw [← r11] at h1 ⊢
        simp [hc.1, hc.2, h1]
      · rw [if_neg hc]
        have hcode' : s'.code = 0 ∨ s'.code = 3 := by omega
        have small : s'.code = 3 → s'.cfg.guess < count (problem s.ham s.cfg) := by
          intro h
          rw [r11] at h
          have := hd.tooSmall _ _ r3 h
          rw [r2] at this
          omega
        have hcl := hd.count_le (problem s.ham s.cfg)
        have hsz : (problem s.ham s.cfg).size = s.ham.rows := rfl
        have lt : s'.code = 3 → s.cfg.guess < s'.cfg.guess ∧ s'.cfg.guess < s.ham.rows := by
          intro h
          have := small h
          refine ⟨?_, by omega⟩
          rcases hbig with h | h | h
          · exact h
          · have := one h; omega
          · omega
        have hpos : 0 < s.cfg.guess := by
          rcases hf.2 with h | h
          · exact absurd h.1 hne
          · omega
        have := ih (s := s') (by rw [r8]; exact r6) r7 (by rw [r8]; exact hn) (by
            intro h1
            rw [ep]
            exact one (by omega)) (by rw [ep]; exact hcount) hcode' (by rw [ep]; exact r17) (by
            intro h
            have := lt h
            have := hfuel h3
            rw [r8]
            omega)
        show LoopGood lib s _ (sizeLoop lib fuel s')
        revert this
        cases hq : sizeLoop lib fuel s' with
        | done s'' =>
          rintro ⟨a1, a2, a3, a4⟩
          rw [r8] at a1 a2
          rw [ep] at a4
          refine ⟨a1, ?_, a3, a4⟩
          by_cases h3' : s'.code = 3
          · have := lt h3'; omega
          · have e0 : s'' = s' := by
              cases fuel with
              | zero => unfold sizeLoop at hq; rw [if_neg h3'] at hq; injection hq with hq; exact hq.symm
              | succ k => unfold sizeLoop at hq; rw [if_neg h3'] at hq; injection hq with hq; exact hq.symm
            rw [e0]; omega
        | threw s'' e =>
          rintro ⟨a1, a2, a3, a4⟩
          rw [r8] at a2 a3
          rw [ep] at a4
          refine ⟨a1, a2, ?_, a4⟩
          have h3' : s'.code = 3 := by
            by_contra h3'
            cases fuel with
            | zero => unfold sizeLoop at hq; rw [if_neg h3'] at hq; cases hq
            | succ k => unfold sizeLoop at hq; rw [if_neg h3'] at hq; cases hq
          have := lt h3'; omega
        | undefined => exact fun h => h
        | running => exact fun h => h

/-- The check of the return code and the end of `solve`. -/
theorem check_finish {lib : Lib K R} {count : Problem K R → Nat} (hd : Documented lib count) {fuel : Nat}
    {s : State K R} (hf : Fit s.ham.rows s) (hne : s.values ≠ []) (hn : 17 * s.ham.rows < 21474836480)
    (one : s.code = 3 → s.cfg.guess = 1 → count (problem s.ham s.cfg) ≤ 1)
    {t : Nat} {c : Call K R} (hp : c.problem = problem s.ham s.cfg) (hl : c.Legal) (hcode : s.code = (lib t c).code)
    (hfinal : s.final = (lib t c).final)
    (hok : s.code = 0 → Solved lib (problem s.ham s.cfg) s ∧ 0 < s.final ∧ s.final ≤ s.residual.length)
    (hfuel : s.ham.rows ≤ fuel) :
    Good lib count (problem s.ham s.cfg) (s.calls + s.ham.rows)
      (match s.checkCode lib fuel with
       | .done s => s.finish
       | o => o) := by
  have hsz : (problem s.ham s.cfg).size = s.ham.rows := rfl
  have hpos : 0 < s.cfg.guess ∧ s.cfg.guess ≤ s.ham.rows := by
    rcases hf.2 with h | h
    · exact absurd h.1 hne
    · omega
  unfold State.checkCode
  by_cases h0 : s.code = 0
  · rw [if_neg (by omega)]
    obtain ⟨o1, o2, o3⟩ := hok h0
    simp only [State.finish]
    rw [if_pos ⟨o2, o3⟩]
    obtain ⟨s1, s2, -, -⟩ := hd.success _ _ hl (hcode.symm.trans h0)
    rw [hp] at s2
    cases s.recycleWarning
    · exact ⟨o1, hf, by show s.calls ≤ _; omega, by omega⟩
    · exact ⟨o1, hf, by show s.calls ≤ _; omega, by omega⟩
  rw [if_pos h0]
  by_cases h3 : s.code = 3
  · rw [if_pos h3]
    have ts := hd.tooSmall _ _ hl (hcode.symm.trans h3)
    have hm := hl.1
    rw [hp] at ts
    have := sizeLoop_spec hd fuel (s := { s with sizeWarning := true }) hf hne hn (one h3) (by show 0 < count (problem s.ham s.cfg); omega)
      (Or.inr h3) (fun h => absurd h h0) (by intro _; show (s.ham.rows - s.cfg.guess).toNat + 1 ≤ fuel; omega)
    revert this
    cases hq : sizeLoop lib fuel { s with sizeWarning := true } with
    | done s' =>
      rintro ⟨a1, a2, a3, a4, a5, a6⟩
      simp only [State.finish]
      rw [if_pos ⟨a5, a6⟩]
      have a2 : s'.calls ≤ s.calls + ((s.ham.rows - s.cfg.guess).toNat + 1) := a2
      cases s'.recycleWarning
      · exact ⟨a4, a1, by show s'.calls ≤ _; omega, by omega⟩
      · exact ⟨a4, a1, by show s'.calls ≤ _; omega, by omega⟩
    | threw s' e =>
      rintro ⟨a1, a2, a3, a4⟩
      have a3 : s'.calls ≤ s.calls + ((s.ham.rows - s.cfg.guess).toNat + 1) := a3
      exact ⟨a1, a2, by omega, a4⟩
    | undefined => exact fun h => h.elim
    | running => exact fun h => h
  rw [if_neg h3]
  by_cases h1 : s.code = 1
  · rw [if_pos h1]
    obtain ⟨n1, n2⟩ := hd.none _ _ hl (hcode.symm.trans h1)
    simp only [State.finish]
    rw [if_neg (by omega)]
    show count _ = 0
    rw [← hp]; exact n1
  · rw [if_neg h1]
    exact ⟨rfl, hf, by omega, t, c, hp, hl, by rw [← hcode]; simp [h0, h1, h3]⟩

/-- **C71** (size correction).  Without recycling: whatever the size guess is, `solve` calls the library at most
`n + 1` times with legal arguments for the current Hamiltonian, makes the subspace bigger as long as the library asks for
it, and ends: with the eigenvalues and eigenvectors of a successful call, or with an exception if the library reported another
error.  Full claim: for every guess and every Hamiltonian.  Guesses 0 and (if there are two or more eigenvalues) 1, and
intervals without eigenvalues are left out, see the witnesses. -/
theorem C71_solve_partial {lib : Lib K R} {count : Problem K R → Nat} (hd : Documented lib count) {s : State K R}
    (hrec : s.cfg.recycle = false) (hrows : 0 < s.ham.rows) (hn : 17 * s.ham.rows < 21474836480) (hf : Fit s.ham.rows s)
    (one : s.cfg.guess = 1 → count (problem s.ham s.cfg) ≤ 1) {fuel : Nat} (hfuel : s.ham.rows ≤ fuel) :
    Good lib count (problem s.ham s.cfg) (s.calls + s.ham.rows + 1) (s.solve lib fuel) := by
  unfold State.solve
  simp only
  generalize hP : ({ s with recycleWarning := false, recycleLoops := 0, sizeWarning := false } : State K R) = P
  have e1 : P.ham = s.ham := by rw [← hP]
  have e2 : P.cfg = s.cfg := by rw [← hP]
  have e4 : P.calls = s.calls := by rw [← hP]
  have hfP : Fit P.ham.rows P := by rw [← hP]; exact hf
  obtain ⟨s', c, r1, r2, r3, r4, r5, r6, r7, r8, r9, r10, r11, r12, r13, r14, r15, r16⟩ :=
    call_spec hd (s := P) (by rw [e1]; omega) hfP
  have ep : problem s'.ham s'.cfg = problem s.ham s.cfg := by rw [r7, r8, e1, e2]; rfl
  have er : s'.cfg.recycle = false := by rw [r8, e2]; exact hrec
  rw [r1]
  simp only [er]
  have hg : s'.cfg.guess = if P.values = [] then clamp s.ham.rows s.cfg.guess else s.cfg.guess := by
    rw [r8, e1, e2]
  have := check_finish hd (fuel := fuel) (s := s') (by rw [r7]; exact r5) r6 (by rw [r7, e1]; exact hn) (by
      intro h3 h1
      rw [ep]
      by_cases hv : P.values = []
      · rw [if_pos hv] at hg
        by_cases hg1 : s.cfg.guess = 1
        · exact one hg1
        · have hr1 : s.ham.rows = 1 := by
            rw [h1] at hg
            unfold clamp at hg
            split at hg <;> omega
          have := hd.count_le (problem s.ham s.cfg)
          have hsz : (problem s.ham s.cfg).size = s.ham.rows := rfl
          omega
      · rw [if_neg hv] at hg
        exact one (by omega)) (t := P.calls) (c := c) (by rw [r2, ep, e1, e2]) r3 r10 r12 (by
      rw [ep]
      rw [e1, e2] at r16
      exact r16) (by rw [r7, e1]; exact hfuel)
  rw [ep, r13, e4, r7, e1] at this
  have h2 : s.calls + 1 + s.ham.rows = s.calls + s.ham.rows + 1 := by omega
  rw [h2] at this
  exact this

/-! ## Recycling the subspace -/

/-- How `solve` may end if the subspace is recycled.  An exception may also mean that the limit on the number of refinement
loops was exceeded. -/
def GoodRecycle (lib : Lib K R) (count : Problem K R → Nat) (p : Problem K R) : Out (State K R) → Prop
  | .done s => Solved lib p s ∧ Fit p.size s ∧ 0 < count p
  | .threw s e => e = .runtimeError ∧ Fit p.size s ∧
      ((∃ t c, c.problem = p ∧ c.Legal ∧ (lib t c).code ∉ [0, 1, 3]) ∨ 2 * s.cfg.maxLoops < s.recycleLoops)
  | .undefined => count p = 0
  | .running => False

theorem Good.recycle {lib : Lib K R} {count : Problem K R → Nat} {p : Problem K R} {limit : Nat} {o : Out (State K R)}
    (h : Good lib count p limit o) : GoodRecycle lib count p o := by
  cases o with
  | done s => exact ⟨h.1, h.2.1, h.2.2.2⟩
  | threw s e => exact ⟨h.1, h.2.1, Or.inl h.2.2.2⟩
  | undefined => exact h
  | running => exact h

/-- The last call of the library was answered as it is recorded in `s`. -/
structure Answered (lib : Lib K R) (s : State K R) : Prop where
  fit : Fit s.ham.rows s
  ne : s.values ≠ []
  ok : s.code = 0 → Solved lib (problem s.ham s.cfg) s ∧ 0 < s.final ∧ s.final ≤ s.residual.length
  last : ∃ t c, c.problem = problem s.ham s.cfg ∧ c.Legal ∧ s.code = (lib t c).code ∧ s.final = (lib t c).final ∧
    s.suggested = (lib t c).m0 ∧ s.loops = (lib t c).loops

/-- A bound on the number of rounds of the loop. -/
def rank (s : State K R) : Nat :=
  ((2 * s.cfg.maxLoops - s.recycleLoops).toNat + 1) * (2 * s.ham.rows + 4) +
    (if s.code = 3 then 2 * (s.ham.rows - s.cfg.guess).toNat + (if s.suggested = s.cfg.guess then 1 else 2) else 0)

theorem rank_lt_of_loops {s s' : State K R} (hh : s'.ham = s.ham) (hm : s'.cfg.maxLoops = s.cfg.maxLoops)
    (h : s.recycleLoops < s'.recycleLoops) (hle : s'.recycleLoops ≤ 2 * s.cfg.maxLoops) (hg : 0 < s'.cfg.guess) :
    rank s' < rank s := by
  unfold rank
  rw [hh, hm]
  have h1 : (2 * s.cfg.maxLoops - s'.recycleLoops).toNat + 1 + 1 ≤ (2 * s.cfg.maxLoops - s.recycleLoops).toNat + 1 := by omega
  have h2 := Nat.mul_le_mul_right (2 * s.ham.rows + 4) h1
  rw [Nat.add_mul _ 1] at h2
  split <;> split <;> (try split) <;> omega

theorem rank_lt_of_size {s s' : State K R} (hh : s'.ham = s.ham) (hm : s'.cfg.maxLoops = s.cfg.maxLoops)
    (h : s.recycleLoops ≤ s'.recycleLoops) (h3 : s.code = 3)
    (hs : s'.code = 3 → s'.suggested = s'.cfg.guess ∧ s'.cfg.guess < s.ham.rows ∧
      (s.cfg.guess < s'.cfg.guess ∨ (s.suggested ≠ s.cfg.guess ∧ s.cfg.guess ≤ s'.cfg.guess))) :
    rank s' < rank s := by
  unfold rank
  rw [hh, hm]
  have h1 : (2 * s.cfg.maxLoops - s'.recycleLoops).toNat + 1 ≤ (2 * s.cfg.maxLoops - s.recycleLoops).toNat + 1 := by omega
  have h2 := Nat.mul_le_mul_right (2 * s.ham.rows + 4) h1
  rw [if_pos h3]
  by_cases h3' : s'.code = 3
  · obtain ⟨a, b, c⟩ := hs h3'
    rw [if_pos h3', if_pos a]
    split <;> omega
  · rw [if_neg h3']
    split <;> omega

/-- What the loop for a recycled subspace does. -/
def RecycleLoopGood (lib : Lib K R) (s : State K R) : Out (State K R) → Prop
  | .done s' => Answered lib s' ∧ s'.ham = s.ham ∧ s'.code ≠ 3 ∧ problem s'.ham s'.cfg = problem s.ham s.cfg
  | .threw s' e => e = .runtimeError ∧ Fit s.ham.rows s' ∧ 2 * s'.cfg.maxLoops < s'.recycleLoops
  | .undefined => False
  | .running => False

theorem recycleLoop_spec {lib : Lib K R} {count : Problem K R → Nat} (hd : Documented lib count)
    (hloops : ∀ t c, c.Legal → 0 ≤ (lib t c).loops) (hkept : ∀ t c, c.Legal → (lib t c).code = 3 → (lib t c).m0 = c.m0)
    (fuel : Nat) {s : State K R} (ha : Answered lib s) (hn : 17 * s.ham.rows < 21474836480) (hmax : 0 < s.cfg.maxLoops)
    (one : s.cfg.guess = 1 → count (problem s.ham s.cfg) ≤ 1) (hfuel : rank s ≤ fuel) :
    RecycleLoopGood lib s (recycleLoop lib fuel s) := by
  induction fuel generalizing s with
  | zero =>
    exfalso
    unfold rank at hfuel
    have : 0 < ((2 * s.cfg.maxLoops - s.recycleLoops).toNat + 1) * (2 * s.ham.rows + 4) := Nat.mul_pos (by omega) (by omega)
    omega
  | succ fuel ih =>
    unfold recycleLoop
    by_cases hcond : s.loops ≥ s.cfg.maxLoops ∨ s.code = 3
    swap
    · rw [if_neg hcond]
      exact ⟨ha, rfl, by omega, rfl⟩
    rw [if_pos hcond]
    obtain ⟨t, c, c1, c2, c3, c4, c5, c6⟩ := ha.last
    have hl0 := hloops t c c2
    generalize hB : s.recycleBody lib = B
    unfold State.recycleBody at hB
    simp only at hB
    by_cases hthrow : s.recycleLoops + s.loops > 2 * s.cfg.maxLoops
    · rw [if_pos hthrow] at hB
      rw [← hB]
      exact ⟨rfl, ha.fit, hthrow⟩
    rw [if_neg hthrow] at hB
    obtain ⟨s', c', r1, r2, r3, r4, r5, r5', r5'', r6, r7, r8, r9, r10, r11, r12, r13, r14, r15, r16, r17⟩ :=
      retry_spec hd (s := { s with recycleWarning := true, recycleLoops := s.recycleLoops + s.loops }) ha.fit ha.ne hn
        (decide (s.suggested = s.cfg.guess))
    simp only at r2 r5 r5' r6 r8 r9 r10 r11 r12 r13 r14 r15 r17
    have ep : problem s'.ham s'.cfg = problem s.ham s.cfg := by rw [r8, r9]; rfl
    have em : s'.cfg.maxLoops = s.cfg.maxLoops := by rw [r9]
    have hgpos : 0 < s.cfg.guess := by
      rcases ha.fit.2 with h | h
      · exact absurd h.1 ha.ne
      · omega
    rw [r1] at hB
    rw [← hB]
    show RecycleLoopGood lib s (recycleLoop lib fuel s')
    have ha' : Answered lib s' := ⟨by rw [r8]; exact r6, r7, by rw [ep]; exact r17,
      s.calls, c', by rw [r2, ep], r3, r11, r13, r10, r12⟩
    have hlt : rank s' < rank s := by
      by_cases h3 : s.code = 3
      · refine rank_lt_of_size r8 em (by omega) h3 ?_
        intro h3'
        have hk := hkept s.calls c' r3 (r11.symm.trans h3')
        have ts := hd.tooSmall _ _ r3 (r11.symm.trans h3')
        have hcl := hd.count_le c'.problem
        have hsz : c'.problem.size = s.ham.rows := by rw [r2]; rfl
        refine ⟨by omega, by omega, ?_⟩
        by_cases hsg : s.suggested = s.cfg.guess
        · left
          rcases r5' (by simp [hsg]) with h | h | h
          · exact h
          · have h1 := one h
            rw [r2] at ts
            have := r3.1
            omega
          · omega
        · exact Or.inr ⟨hsg, r5⟩
      · refine rank_lt_of_loops r8 em (by omega) (by omega) (by omega)
    have := ih (s := s') ha' (by rw [r8]; exact hn) (by omega) (by
      intro h1
      rw [ep]
      exact one (by omega)) (by omega)
    revert this
    cases recycleLoop lib fuel s' with
    | done s'' =>
      rintro ⟨a1, a2, a3, a4⟩
      exact ⟨a1, a2.trans r8, a3, a4.trans ep⟩
    | threw s'' e =>
      rintro ⟨a1, a2, a3⟩
      rw [r8] at a2
      exact ⟨a1, a2, a3⟩
    | undefined => exact fun h => h
    | running => exact fun h => h

/-- **C71** (recycling).  With recycling, as long as all Hamiltonians have the same size: `solve` ends, every access is inside
the buffers, and the results are those of a successful call for the current Hamiltonian; otherwise an exception is thrown
because of an error of the library or of the limit on refinement loops.  (The library must leave the size unchanged if it
asks for a bigger one; the default limit is 5.)  Full claim: also if the size of the Hamiltonian changes, see the witnesses. -/
theorem C71_recycle_partial {lib : Lib K R} {count : Problem K R → Nat} (hd : Documented lib count)
    (hloops : ∀ t c, c.Legal → 0 ≤ (lib t c).loops) (hkept : ∀ t c, c.Legal → (lib t c).code = 3 → (lib t c).m0 = c.m0)
    {s : State K R} (hrec : s.cfg.recycle = true) (hmax : 0 < s.cfg.maxLoops) (hrows : 0 < s.ham.rows)
    (hn : 17 * s.ham.rows < 21474836480) (hf : Fit s.ham.rows s)
    (one : s.cfg.guess = 1 → count (problem s.ham s.cfg) ≤ 1) :
    ∃ fuel₀, ∀ fuel ≥ fuel₀, GoodRecycle lib count (problem s.ham s.cfg) (s.solve lib fuel) := by
  unfold State.solve
  simp only
  generalize hP : ({ s with recycleWarning := false, recycleLoops := 0, sizeWarning := false } : State K R) = P
  have e1 : P.ham = s.ham := by rw [← hP]
  have e2 : P.cfg = s.cfg := by rw [← hP]
  have hfP : Fit P.ham.rows P := by rw [← hP]; exact hf
  obtain ⟨s', c, r1, r2, r3, r4, r5, r6, r7, r8, r9, r10, r11, r12, r13, r14, r15, r16⟩ :=
    call_spec hd (s := P) (by rw [e1]; omega) hfP
  have ep : problem s'.ham s'.cfg = problem s.ham s.cfg := by rw [r7, r8, e1, e2]; rfl
  have er : s'.cfg.recycle = true := by rw [r8, e2]; exact hrec
  rw [r1]
  simp only [er, if_true]
  have hg : s'.cfg.guess = if P.values = [] then clamp s.ham.rows s.cfg.guess else s.cfg.guess := by
    rw [r8, e1, e2]
  have one' : s'.cfg.guess = 1 → count (problem s'.ham s'.cfg) ≤ 1 := by
    intro h1
    rw [ep]
    by_cases hv : P.values = []
    · rw [if_pos hv] at hg
      by_cases hg1 : s.cfg.guess = 1
      · exact one hg1
      · have hr1 : s.ham.rows = 1 := by
          rw [h1] at hg
          unfold clamp at hg
          split at hg <;> omega
        have := hd.count_le (problem s.ham s.cfg)
        have hsz : (problem s.ham s.cfg).size = s.ham.rows := rfl
        omega
    · rw [if_neg hv] at hg
      exact one (by omega)
  have ha : Answered lib s' := ⟨by rw [r7]; exact r5, r6, by rw [ep]; rw [e1, e2] at r16; exact r16,
    P.calls, c, by rw [r2, ep, e1, e2], r3, r10, r12, r9, r11⟩
  refine ⟨max (rank s') s'.ham.rows, fun fuel hfuel => ?_⟩
  have := recycleLoop_spec hd hloops hkept fuel ha (by rw [r7, e1]; exact hn) (by rw [r8, e2]; exact hmax) one' (by omega)
  revert this
  cases recycleLoop lib fuel s' with
  | done s'' =>
    rintro ⟨a1, a2, a3, a4⟩
    obtain ⟨t, c', c1, c2, c3, c4, c5, c6⟩ := a1.last
    have := check_finish hd (fuel := fuel) a1.fit a1.ne (by rw [a2, r7, e1]; exact hn) (fun h => absurd h a3) c1 c2 c3 c4 a1.ok
      (by rw [a2]; omega)
    rw [a4, ep] at this
    exact this.recycle
  | threw s'' e =>
    rintro ⟨a1, a2, a3⟩
    rw [r7, e1] at a2
    exact ⟨a1, a2, Or.inr a3⟩
  | undefined => exact fun h => h.elim
  | running => exact fun h => h

/-! ## What the theorems assume -/

/-- **C71** (start).  A new solver and, without recycling, one whose Hamiltonian was changed fulfil what is assumed above for
every Hamiltonian.  With recycling it needs a Hamiltonian of the same size. -/
theorem C71_start (h : Raw K) (cfg : Config R) (hg : cfg.guess ≠ 0) :
    Fit h.rows (create h cfg) ∧
    (∀ {s : State K R}, s.cfg.guess ≠ 0 → s.cfg.recycle = false → Fit h.rows (s.change h)) ∧
    (∀ {s : State K R}, Fit s.ham.rows s → h.rows = s.ham.rows → Fit h.rows (s.change h)) := by
  refine ⟨⟨hg, Or.inl ⟨rfl, rfl, rfl⟩⟩, ?_, ?_⟩
  · intro s h0 hr
    refine ⟨?_, Or.inl ?_⟩ <;> simp [State.change, State.clear, hr, h0]
  · intro s hf hr
    rw [hr]
    unfold State.change
    simp only
    split
    · exact ⟨hf.1, Or.inl ⟨rfl, rfl, rfl⟩⟩
    · exact hf

/-! ## The matrix given to the library -/

/-- Specification: the entries `(column, value)` of row `i` (from 0) of a matrix in the three-array format with one-based
indices. -/
def Problem.row (p : Problem K R) (i : Nat) : List (Nat × K) :=
  (((p.inner.map fun c => c - 1).zip p.vals).drop (p.outer.getD i 1 - 1)).take
    (p.outer.getD (i + 1) 1 - p.outer.getD i 1)

/-- **C71** (matrix).  The library receives the entries of the Hamiltonian, in arrays of the required sizes and with indices
from 1. -/
theorem C71_matrix {h : Raw K} (hw : h.WF) (cfg : Config R) :
    let p := problem h cfg
    p.size = h.rows ∧ p.outer.length = h.rows + 1 ∧ p.outer[0]? = some 1 ∧ (∀ c ∈ p.inner, 1 ≤ c ∧ c ≤ h.cols) ∧
      p.emin = cfg.emin ∧ p.emax = cfg.emax ∧ ∀ i < h.rows, p.row i = h.row i := by
  refine ⟨rfl, ?_, ?_, ?_, rfl, rfl, ?_⟩
  · simp [problem, hw.outerLen]
  · simp [problem, hw.first]
  · intro c hc
    simp only [problem, List.mem_map] at hc
    obtain ⟨c', hc', rfl⟩ := hc
    have := hw.colOk c' hc'
    omega
  · intro i hi
    have hl := hw.outerLen
    unfold Problem.row Raw.row problem
    simp only [List.map_map]
    have e : ((fun c => c - 1) ∘ fun x : Nat => x + 1) = id := by funext x; simp
    rw [e, List.map_id]
    simp [List.getElem?_eq_getElem (show i < h.outer.length by omega),
      List.getElem?_eq_getElem (show i + 1 < h.outer.length by omega)]

/-! ## Where the claim fails -/

/-- **C71**: with the guess 1 and two or more eigenvalues `solve` never ends, because 1.7 is truncated to 1. -/
theorem C71_guess_one_witness {lib : Lib K R} {count : Problem K R → Nat} (hd : Documented lib count)
    (hask : ∀ t (c : Call K R), c.Legal → c.m0 < count c.problem → (lib t c).code = 3) {s : State K R} (hrec : s.cfg.recycle = false)
    (hn : 17 * s.ham.rows < 21474836480) (hg : s.cfg.guess = 1) (hf : Fit s.ham.rows s)
    (hc : 2 ≤ count (problem s.ham s.cfg)) (fuel : Nat) : s.solve lib fuel = .running := by
  have hcl := hd.count_le (problem s.ham s.cfg)
  have hsz : (problem s.ham s.cfg).size = s.ham.rows := rfl
  have loop : ∀ fuel (s : State K R), Fit s.ham.rows s → s.values ≠ [] → 17 * s.ham.rows < 21474836480 → s.cfg.guess = 1 →
      2 ≤ count (problem s.ham s.cfg) → s.code = 3 → sizeLoop lib fuel s = .running := by
    intro fuel
    induction fuel with
    | zero =>
      intro s _ _ _ _ _ h3
      unfold sizeLoop
      rw [if_pos h3]
    | succ fuel ih =>
      intro s hf hne hn hg hc h3
      obtain ⟨s', c, r1, r2, r3, r4, r5, r5', r5'', r6, r7, r8, r9, r10, r11, r12, r13, r14, r15, r16, r17⟩ :=
        retry_spec hd hf hne hn true
      have ep : problem s'.ham s'.cfg = problem s.ham s.cfg := by rw [r8, r9]; rfl
      have h3' : s'.code = 3 := by
        rw [r11]
        exact hask _ _ r3 (by rw [r2]; have := r5'' hg; omega)
      unfold sizeLoop
      rw [if_pos h3]
      have hbody : s.sizeBody lib = .done s' := by
        unfold State.sizeBody
        rw [r1]
        exact if_neg (by omega)
      rw [hbody]
      exact ih s' (by rw [r8]; exact r6) r7 (by rw [r8]; exact hn) (r5'' hg) (by rw [ep]; exact hc) h3'
  unfold State.solve
  simp only
  generalize hP : ({ s with recycleWarning := false, recycleLoops := 0, sizeWarning := false } : State K R) = P
  have e1 : P.ham = s.ham := by rw [← hP]
  have e2 : P.cfg = s.cfg := by rw [← hP]
  have hfP : Fit P.ham.rows P := by rw [← hP]; exact hf
  obtain ⟨s', c, r1, r2, r3, r4, r5, r6, r7, r8, r9, r10, r11, r12, r13, r14, r15, r16⟩ :=
    call_spec hd (s := P) (by rw [e1]; omega) hfP
  have ep : problem s'.ham s'.cfg = problem s.ham s.cfg := by rw [r7, r8, e1, e2]; rfl
  have er : s'.cfg.recycle = false := by rw [r8, e2]; exact hrec
  have hcl1 : clamp s.ham.rows 1 = 1 := by
    unfold clamp
    rw [if_neg (by omega)]
  have hg' : s'.cfg.guess = 1 := by
    rw [r8, e1, e2, hg, hcl1]
    simp
  have h3 : s'.code = 3 := by
    rw [r10]
    refine hask _ _ r3 ?_
    have : c.m0 = 1 := by
      rw [r4, e1, e2, hg, hcl1]
      split
      · rfl
      · rename_i hv
        rcases hfP.2 with h | h
        · exact absurd h.1 hv
        · rw [e2, hg] at h; omega
    rw [r2, e1, e2]; omega
  rw [r1]
  simp only [er]
  have hck : s'.checkCode lib fuel = .running := by
    unfold State.checkCode
    rw [if_pos (by omega), if_pos h3]
    exact loop fuel { s' with sizeWarning := true } (by show Fit s'.ham.rows _; rw [r7]; exact r5) r6
      (by show 17 * s'.ham.rows < _; rw [r7, e1]; exact hn) hg' (by show 2 ≤ count (problem s'.ham s'.cfg); rw [ep]; exact hc) h3
  show (match s'.checkCode lib fuel with
       | .done s => s.finish
       | o => o) = _
  rw [hck]

/-- **C71**: an interval without eigenvalues, which is not meant to be an error, ends with the maximum of an empty array. -/
theorem C71_no_eigenvalues_witness {lib : Lib K R} {count : Problem K R → Nat} (hd : Documented lib count)
    (hnone : ∀ t (c : Call K R), c.Legal → count c.problem = 0 → (lib t c).code = 1) {s : State K R} (hrec : s.cfg.recycle = false)
    (hrows : 0 < s.ham.rows) (hf : Fit s.ham.rows s) (hc : count (problem s.ham s.cfg) = 0) (fuel : Nat) :
    s.solve lib fuel = .undefined := by
  unfold State.solve
  simp only
  generalize hP : ({ s with recycleWarning := false, recycleLoops := 0, sizeWarning := false } : State K R) = P
  have e1 : P.ham = s.ham := by rw [← hP]
  have e2 : P.cfg = s.cfg := by rw [← hP]
  have hfP : Fit P.ham.rows P := by rw [← hP]; exact hf
  obtain ⟨s', c, r1, r2, r3, r4, r5, r6, r7, r8, r9, r10, r11, r12, r13, r14, r15, r16⟩ :=
    call_spec hd (s := P) (by rw [e1]; omega) hfP
  have er : s'.cfg.recycle = false := by rw [r8, e2]; exact hrec
  have h1 := hnone P.calls c r3 (by rw [r2, e1, e2]; exact hc)
  have h0 := (hd.none P.calls c r3 h1).2
  rw [← r10] at h1
  rw [← r12] at h0
  rw [r1]
  simp only [er]
  have hck : s'.checkCode lib fuel = .done s' := by
    unfold State.checkCode
    rw [if_pos (by omega), if_neg (by omega), if_pos h1]
  show (match s'.checkCode lib fuel with
       | .done s => s.finish
       | o => o) = _
  rw [hck]
  simp only [State.finish]
  rw [if_neg (by omega)]

/-- A library for an interval which contains all eigenvalues: it asks for a bigger subspace until it has all. -/
def fullLib : Lib Int Int := fun _ c =>
  if c.m0 < c.problem.size then ⟨1, c.m0, [], [], 0, [], 3⟩
  else ⟨1, c.m0, (List.range c.m0.toNat).map Int.ofNat, (List.range (c.problem.size * c.m0.toNat)).map Int.ofNat,
    c.problem.size, List.replicate c.m0.toNat 0, 0⟩

theorem fullLib_documented : Documented fullLib (·.size) where
  count_le := fun _ => le_refl _
  values := by intro t c h; unfold fullLib; split <;> simp
  residual := by intro t c h; unfold fullLib; split <;> simp
  vectors := by intro t c h; unfold fullLib; split <;> simp
  m0_pos := by intro t c h; unfold fullLib; split <;> exact h.1
  m0_le := by intro t c h; unfold fullLib; split <;> simp
  success := by
    rintro t c ⟨h1, h2⟩
    unfold fullLib
    split
    · simp
    · intro _
      have : c.m0.toNat = c.problem.size := by omega
      simp only [List.length_map, List.length_range, this, Int.toNat_natCast]
      exact ⟨by omega, trivial, le_refl _, le_refl _⟩
  none := by intro t c h; unfold fullLib; split <;> simp
  tooSmall := by
    intro t c h; unfold fullLib; split
    · intro _; assumption
    · simp

/-- A diagonal matrix. -/
def diag (n : Nat) : Raw Int := ⟨n, n, List.range (n + 1), List.range n, List.replicate n 1⟩

example : (problem (diag 2) (⟨0, 2, 2, false, 5⟩ : Config Int)).row 1 = [(1, 1)] :=
  ((C71_matrix (h := diag 2) ⟨rfl, rfl, by decide, by decide, rfl, by decide⟩ (⟨0, 2, 2, false, 5⟩ : Config Int)).2.2.2.2.2.2 1
    (by decide)).trans (by decide)

/-- Without recycling, the guess is corrected from 2 to 3. -/
example (fuel : Nat) (h : 3 ≤ fuel) : Good fullLib (·.size) (problem (diag 3) (⟨0, 2, 2, false, 5⟩ : Config Int)) (0 + 3 + 1)
    ((create (diag 3) ⟨0, 2, 2, false, 5⟩).solve fullLib fuel) :=
  C71_solve_partial (s := create (diag 3) ⟨0, 2, 2, false, 5⟩) fullLib_documented rfl (Nat.zero_lt_succ 2)
    (by show 17 * 3 < 21474836480; omega)
    (C71_start (diag 3) ⟨0, 2, 2, false, 5⟩ (by decide)).1 (by intro h; exact absurd h (by decide)) h

example : ∃ s, (create (diag 3) (⟨0, 2, 2, false, 5⟩ : Config Int)).solve fullLib 3 = .done s ∧ s.calls = 2 ∧
    s.eigenvalues = .ok [0, 1, 2] ∧ s.eigenvectors = .ok [[0, 1, 2], [3, 4, 5], [6, 7, 8]] :=
  ⟨⟨diag 3, ⟨0, 2, 3, false, 5⟩, [0, 1, 2], 3, [0, 1, 2, 3, 4, 5, 6, 7, 8], [0, 0, 0], 3, 3, 1, 0, false, 0, true, 2⟩,
    by decide +kernel, rfl, by decide +kernel, by decide +kernel⟩

example : ∃ fuel₀, ∀ fuel ≥ fuel₀, GoodRecycle fullLib (·.size) (problem (diag 3) (⟨0, 2, 2, true, 5⟩ : Config Int))
    ((create (diag 3) ⟨0, 2, 2, true, 5⟩).solve fullLib fuel) :=
  C71_recycle_partial fullLib_documented (by intro t c _; unfold fullLib; split <;> simp)
    (by intro t c _; unfold fullLib; split <;> simp) rfl (by decide) (Nat.zero_lt_succ 2)
    (by show 17 * 3 < 21474836480; omega)
    (C71_start (diag 3) ⟨0, 2, 2, true, 5⟩ (by decide)).1 (by intro h; exact absurd h (by decide))

/-- **C71**: the guess is reduced to the size of the first Hamiltonian for good.  With the guess 10, after a system of one site,
`solve` for a system of two sites never ends. -/
theorem C71_reduced_guess_witness : ∃ s : State Int Int, (create (diag 1) ⟨0, 2, 10, false, 5⟩).solve fullLib 1 = .done s ∧
    ∀ fuel, (s.change (diag 2)).solve fullLib fuel = .running := by
  refine ⟨⟨diag 1, ⟨0, 2, 1, false, 5⟩, [0], 1, [0], [0], 1, 1, 1, 0, false, 0, false, 1⟩, by decide +kernel, fun fuel => ?_⟩
  exact C71_guess_one_witness fullLib_documented (by
    intro t c _ h
    unfold fullLib
    rw [if_pos h]) rfl (by show 17 * 2 < 21474836480; omega) rfl ⟨by decide, Or.inl ⟨rfl, rfl, rfl⟩⟩ (le_refl 2) fuel

/-- **C71**: with recycling, the buffers are not adapted to a bigger Hamiltonian, and the library writes outside of them. -/
theorem C71_recycle_bigger_witness : ∃ s : State Int Int, (create (diag 2) ⟨0, 2, 2, true, 5⟩).solve fullLib 1 = .done s ∧
    ∀ fuel, (s.change (diag 3)).solve fullLib fuel = .undefined := by
  refine ⟨⟨diag 2, ⟨0, 2, 2, true, 5⟩, [0, 1], 2, [0, 1, 2, 3], [0, 0], 2, 2, 1, 0, false, 0, false, 1⟩, by decide +kernel,
    fun fuel => ?_⟩
  have : (⟨diag 3, ⟨0, 2, 2, true, 5⟩, [0, 1], 2, [0, 1, 2, 3], [0, 0], 2, 2, 1, 0, false, 0, false, 1⟩ : State Int Int).call
      fullLib = .undefined := by decide +kernel
  unfold State.solve
  simp only [State.change, Bool.not_true]
  simp only [Bool.false_eq_true, if_false]
  rw [this]

/-- A library that finds one eigenvalue with the eigenvector `1, 2, ...`. -/
def oneLib : Lib Int Int := fun _ c =>
  ⟨1, c.m0, [7], (List.range c.problem.size).map fun i => Int.ofNat i + 1, 1, [0], 0⟩

/-- **C71**: with recycling, after a smaller Hamiltonian of one site the eigenvector has as many elements as that of the earlier,
bigger one. -/
theorem C71_recycle_smaller_witness : ∃ s s' : State Int Int,
    (create (diag 2) ⟨0, 2, 1, true, 5⟩).solve oneLib 1 = .done s ∧ s.eigenvectors = .ok [[1, 2]] ∧
      (s.change (diag 1)).solve oneLib 1 = .done s' ∧ s'.eigenvectors = .ok [[1, 2]] :=
  ⟨⟨diag 2, ⟨0, 2, 1, true, 5⟩, [7], 2, [1, 2], [0], 1, 1, 1, 0, false, 0, false, 1⟩,
    ⟨diag 1, ⟨0, 2, 1, true, 5⟩, [7], 2, [1, 2], [0], 1, 1, 1, 0, false, 0, false, 2⟩,
    by decide +kernel, by decide +kernel, by decide +kernel, by decide +kernel⟩

/-- The assumption on empty intervals can be met. -/
example : ∃ lib : Lib Int Int, Documented lib (fun _ => 0) ∧ ∀ t (c : Call Int Int), c.Legal → (lib t c).code = 1 :=
  ⟨fun _ c => ⟨0, c.m0, [], [], 0, [], 1⟩,
    ⟨fun _ => Nat.zero_le _, fun _ _ _ => Nat.zero_le _, fun _ _ _ => Nat.zero_le _, fun _ _ _ => Nat.zero_le _, fun _ _ h => h.1,
      fun _ _ _ => le_refl _, fun _ _ _ h => absurd (show (1 : Int) = 0 from h) (by decide), fun _ _ _ _ => ⟨rfl, rfl⟩,
      fun _ _ _ h => absurd (show (1 : Int) = 3 from h) (by decide)⟩,
    fun _ _ _ => rfl⟩

end Verif.Feast
