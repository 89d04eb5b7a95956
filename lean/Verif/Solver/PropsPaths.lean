import Verif.Solver.Paths
import Verif.Solver.PropsBands
import Mathlib.Tactic.Linarith
import Mathlib.Tactic.Ring
import Mathlib.Tactic.NormNum
import Mathlib.Tactic.Positivity
import Mathlib.Tactic.FieldSimp
import Mathlib.Algebra.BigOperators.Group.List.Basic

/-!
# C83: paths connect the given points with samples at the given distance
-/

namespace Verif.Solver.Paths

/-! ## Specification -/

/-- The Euclidean distance of two points. -/
noncomputable def dist (a b : Vec) : ℝ := Real.sqrt ((List.zipWith (fun x y => (y - x) ^ 2) a b).sum)

/-- `r` is the point of the line from `a` to `b` at the fraction `t`. -/
def OnLine (a b : Vec) (t : ℝ) (r : Vec) : Prop :=
  r.length = a.length ∧ ∀ (c : Nat) x y, a[c]? = some x → b[c]? = some y → r[c]? = some (x + t * (y - x))

/-! ## Lemmas -/

theorem sub_eq (a b : Vec) (h : a.length = b.length) : sub b a = .ok (List.zipWith (· - ·) b a) := by
  unfold sub
  rw [if_pos h.symm]

theorem norm_sub (a b : Vec) : norm (List.zipWith (· - ·) b a) = dist a b := by
  unfold norm dist
  congr 1
  induction a generalizing b with
  | nil => cases b <;> simp
  | cons x a ih =>
    cases b with
    | nil => simp
    | cons y b => simp only [List.zipWith_cons_cons, List.map_cons, List.sum_cons, ih b]; ring

theorem numSteps_spec (d step : ℝ) (hd : 0 ≤ d) (hs : 0 < step) :
    ∃ n : Nat, numSteps d step = .ok n ∧ n * step ≤ d ∧ d < (n + 1) * step := by
  have h0 : 0 ≤ ⌊d / step⌋ := Int.floor_nonneg.2 (div_nonneg hd hs.le)
  refine ⟨⌊d / step⌋.toNat, ?_, ?_, ?_⟩
  · unfold numSteps
    rw [if_neg hs.ne', if_neg (not_lt.2 h0)]
  · have h1 := Int.floor_le (d / step)
    rw [le_div_iff₀ hs] at h1
    have : ((⌊d / step⌋.toNat : Nat) : ℝ) = (⌊d / step⌋ : ℝ) := by
      rw [← Int.cast_natCast, Int.toNat_of_nonneg h0]
    rw [this]
    exact h1
  · have h1 := Int.lt_floor_add_one (d / step)
    rw [div_lt_iff₀ hs] at h1
    have : ((⌊d / step⌋.toNat : Nat) : ℝ) = (⌊d / step⌋ : ℝ) := by
      rw [← Int.cast_natCast, Int.toNat_of_nonneg h0]
    rw [this]
    exact h1

theorem onLine_sample (a b : Vec) (h : a.length = b.length) (n i : Nat) : OnLine a b ((i : ℝ) / n) (sample a b n i) := by
  unfold OnLine sample
  refine ⟨by simp [h], ?_⟩
  intro c x y hx hy
  rw [List.getElem?_zipWith, hx, hy]
  simp only [Option.some.injEq]
  ring

theorem onLine_zero (a b : Vec) (h : a.length = b.length) (r : Vec) : OnLine a b 0 r ↔ r = a := by
  constructor
  · rintro ⟨h1, h2⟩
    apply List.ext_getElem? 
    intro c
    by_cases hc : c < a.length
    · rw [h2 c _ _ (List.getElem?_eq_getElem hc) (List.getElem?_eq_getElem (by omega)), List.getElem?_eq_getElem hc]
      simp
    · rw [List.getElem?_eq_none (by omega), List.getElem?_eq_none (by omega)]
  · rintro rfl
    refine ⟨rfl, ?_⟩
    intro c x y hx _
    rw [hx]
    simp

theorem onLine_one (a b : Vec) (h : a.length = b.length) : OnLine a b 1 b := by
  refine ⟨h.symm, ?_⟩
  intro c x y hx hy
  rw [hy]
  simp

theorem sum_line (a b r r' : Vec) (t t' : ℝ) (h : a.length = b.length) (h1 : OnLine a b t r) (h2 : OnLine a b t' r') :
    (List.zipWith (fun x y => (y - x) ^ 2) r r').sum = (t' - t) ^ 2 * (List.zipWith (fun x y => (y - x) ^ 2) a b).sum := by
  induction a generalizing b r r' with
  | nil =>
    have : r = [] := List.eq_nil_of_length_eq_zero h1.1
    subst this
    simp
  | cons x a ih =>
    obtain ⟨l1, g1⟩ := h1
    obtain ⟨l2, g2⟩ := h2
    rcases b with _ | ⟨y, b⟩
    · simp at h
    rcases r with _ | ⟨z, r⟩
    · simp at l1
    rcases r' with _ | ⟨z', r'⟩
    · simp at l2
    have e1 := g1 0 x y rfl rfl
    have e2 := g2 0 x y rfl rfl
    simp only [List.getElem?_cons_zero, Option.some.injEq] at e1 e2
    rw [List.zipWith_cons_cons, List.sum_cons, List.zipWith_cons_cons, List.sum_cons,
      ih b r r' (by simpa using h) ⟨by simpa using l1, fun c u v hu hv => by simpa using g1 (c + 1) u v (by simpa using hu) (by simpa using hv)⟩
        ⟨by simpa using l2, fun c u v hu hv => by simpa using g2 (c + 1) u v (by simpa using hu) (by simpa using hv)⟩, e1, e2]
    ring

theorem dist_line (a b r r' : Vec) (t t' : ℝ) (h : a.length = b.length) (h1 : OnLine a b t r) (h2 : OnLine a b t' r') : dist r r' = |t' - t| * dist a b := by
  unfold dist
  rw [sum_line a b r r' t t' h h1 h2, Real.sqrt_mul (sq_nonneg _), Real.sqrt_sq_eq_abs]

theorem dist_nonneg (a b : Vec) : 0 ≤ dist a b := Real.sqrt_nonneg _

theorem loop_spec (step : ℝ) (hs : 0 < step) (w : Nat) (last : Nat) (k : Vec) (ks : List Vec) (hw : ∀ v ∈ k :: ks, v.length = w) :
    ∃ bs is, loop step last k ks = .ok (bs, is) ∧ bs ≠ [] ∧ (∀ b ∈ bs, b.width = w) ∧ (∀ r ∈ bs.flatMap (·.rows), r.length = w) ∧ is.length = ks.length ∧
      (∀ (i : Nat) a b, (k :: ks)[i]? = some a → (k :: ks)[i + 1]? = some b → ∃ s n : Nat, (last :: is)[i]? = some (last + s) ∧ (last :: is)[i + 1]? = some (last + s + n) ∧
        n * step ≤ dist a b ∧ dist a b < (n + 1) * step ∧ ∀ t < n, ∃ r, (bs.flatMap (·.rows))[s + t]? = some r ∧ OnLine a b ((t : ℝ) / n) r) ∧
      ∃ e, (last :: is)[ks.length]? = some (last + e) ∧ (bs.flatMap (·.rows)).length = e + 1 ∧ (bs.flatMap (·.rows))[e]? = (k :: ks)[ks.length]? := by
  induction ks generalizing last k with
  | nil =>
    refine ⟨_, _, rfl, by simp, ?_, ?_, rfl, ?_, 0, rfl, rfl, rfl⟩
    · intro b hb
      rw [List.mem_singleton.1 hb]
      exact hw k List.mem_cons_self
    · intro r hr
      simp only [List.flatMap_cons, List.flatMap_nil, List.append_nil, List.mem_singleton] at hr
      rw [hr]
      exact hw k List.mem_cons_self
    · intro i a b _ hb
      simp at hb
  | cons k' ks ih =>
    have hk := hw k List.mem_cons_self
    have hk' := hw k' (List.mem_cons_of_mem _ List.mem_cons_self)
    obtain ⟨n, n1, n2, n3⟩ := numSteps_spec (dist k k') step (dist_nonneg _ _) hs
    obtain ⟨bs, is, h1, h0, h2, h3, h4, h5, e, e1, e2, e3⟩ := ih (last + n) k' fun v hv => hw v (List.mem_cons_of_mem _ hv)
    have hlen : (segment k k' n).rows.length = n := by simp [segment]
    refine ⟨segment k k' n :: bs, (last + n) :: is, ?_, by simp, ?_, ?_, by simp [h4], ?_, n + e, ?_, ?_, ?_⟩
    · unfold loop
      rw [sub_eq k k' (hk.trans hk'.symm), Res.bind_ok, norm_sub, n1, Res.bind_ok, h1]
      rfl
    · intro b hb
      rcases List.mem_cons.1 hb with rfl | hb
      · simp [segment, hk, hk']
      · exact h2 b hb
    · intro r hr
      rw [List.flatMap_cons, List.mem_append] at hr
      rcases hr with hr | hr
      · obtain ⟨i, -, rfl⟩ := List.mem_map.1 hr
        simp [sample, hk, hk']
      · exact h3 r hr
    · intro i a b ha hb
      rcases i with _ | i
      · simp only [List.getElem?_cons_zero, List.getElem?_cons_succ, Option.some.injEq, Nat.zero_add] at ha hb
        subst ha
        subst hb
        refine ⟨0, n, rfl, rfl, n2, n3, ?_⟩
        intro t ht
        refine ⟨sample k k' n t, ?_, onLine_sample k k' (hk.trans hk'.symm) n t⟩
        rw [List.flatMap_cons, List.getElem?_append_left (by omega)]
        simp [segment, ht]
      · simp only [List.getElem?_cons_succ] at ha hb
        obtain ⟨s, m, s1, s2, s3, s4, s5⟩ := h5 i a b ha hb
        refine ⟨n + s, m, ?_, ?_, s3, s4, ?_⟩
        · rw [List.getElem?_cons_succ, s1, Nat.add_assoc]
        · rw [List.getElem?_cons_succ, s2]
          congr 1
          omega
        · intro t ht
          obtain ⟨r, r1, r2⟩ := s5 t ht
          refine ⟨r, ?_, r2⟩
          rw [List.flatMap_cons, List.getElem?_append_right (by omega), hlen, ← r1]
          congr 1
          omega
    · rw [List.length_cons, List.getElem?_cons_succ, e1, Nat.add_assoc]
    · rw [List.flatMap_cons, List.length_append, hlen, e2]
      omega
    · rw [List.flatMap_cons, List.getElem?_append_right (by omega), hlen, List.length_cons, List.getElem?_cons_succ, ← e3]
      congr 1
      omega

/-! ## Paths -/

/-- **C83** (paths).  For points with the same number of components and a positive step, the path is made without errors; between two neighboring points it has as many samples as
steps fit into their distance, at equal distances on the line from the first (included) to the second (not included); it ends with the last point.  `point_indices` has
the number of samples before each point. -/
theorem C83_path (step : ℝ) (hs : 0 < step) (w : Nat) (k0 k1 : Vec) (ks : List Vec) (hw : ∀ v ∈ k0 :: k1 :: ks, v.length = w) :
    ∃ p, makePath step k0 k1 ks = .ok p ∧ (∀ r ∈ p.rows, r.length = w) ∧ p.pointIndices.length = ks.length + 2 ∧ p.pointIndices[0]? = some 0 ∧
      (∀ (i : Nat) a b, (k0 :: k1 :: ks)[i]? = some a → (k0 :: k1 :: ks)[i + 1]? = some b →
        ∃ s n : Nat, p.pointIndices[i]? = some s ∧ p.pointIndices[i + 1]? = some (s + n) ∧ n * step ≤ dist a b ∧ dist a b < (n + 1) * step ∧
          ∀ t < n, ∃ r, p.rows[s + t]? = some r ∧ OnLine a b ((t : ℝ) / n) r) ∧
      ∃ e, p.pointIndices[ks.length + 1]? = some e ∧ p.rows.length = e + 1 ∧ p.rows[e]? = (k0 :: k1 :: ks)[ks.length + 1]? := by
  obtain ⟨bs, is, h1, h0, h2, h3, h4, h5, e, e1, e2, e3⟩ := loop_spec step hs w 0 k0 (k1 :: ks) hw
  have hv : vstack bs = .ok (bs.flatMap (·.rows)) := by
    rcases bs with _ | ⟨b, bs⟩
    · exact absurd rfl h0
    · simp only [vstack]
      rw [if_pos]
      · rfl
      · rw [List.all_eq_true]
        intro c hc
        rw [beq_iff_eq, h2 c (List.mem_cons_of_mem _ hc), h2 b List.mem_cons_self]
  refine ⟨⟨bs.flatMap (·.rows), 0 :: is⟩, ?_, h3, by simp [h4], rfl, ?_, e, ?_, e2, e3⟩
  · unfold makePath
    rw [if_pos (by simp), h1, Res.bind_ok]
    simp only
    rw [hv]
    rfl
  · intro i a b ha hb
    obtain ⟨s, n, s1, s2, s3⟩ := h5 i a b ha hb
    rw [Nat.zero_add] at s1 s2
    exact ⟨s, n, s1, s2, s3⟩
  · rw [Nat.zero_add] at e1
    exact e1

/-- All neighboring points are at least one step apart. -/
def AllLong (step : ℝ) (pts : List Vec) : Prop := ∀ (i : Nat) a b, pts[i]? = some a → pts[i + 1]? = some b → step ≤ dist a b

/-- Point `j` is the first point from `i` on which is the last one or has its successor at least one step away. -/
structure Kept (step : ℝ) (pts : List Vec) (i j : Nat) : Prop where
  le : i ≤ j
  short : ∀ m, i ≤ m → m < j → ∀ a b, pts[m]? = some a → pts[m + 1]? = some b → dist a b < step
  long : j + 1 = pts.length ∨ ∃ a b, pts[j]? = some a ∧ pts[j + 1]? = some b ∧ step ≤ dist a b

/-- **C83** (points, exactly).  The sample at the index of a point is this point, if it is the last one or its successor is at least one step away; otherwise the point is lost, and
the sample is the next point which is kept. -/
theorem C83_kept (step : ℝ) (hs : 0 < step) (w : Nat) (k0 k1 : Vec) (ks : List Vec) (hw : ∀ v ∈ k0 :: k1 :: ks, v.length = w) :
    ∃ p, makePath step k0 k1 ks = .ok p ∧ ∀ i j, Kept step (k0 :: k1 :: ks) i j →
      ∃ s v, p.pointIndices[i]? = some s ∧ p.rows[s]? = some v ∧ (k0 :: k1 :: ks)[j]? = some v := by
  obtain ⟨p, h1, h2, h3, h4, h5, e, e1, e2, e3⟩ := C83_path step hs w k0 k1 ks hw
  refine ⟨p, h1, ?_⟩
  intro i j ⟨hle, hshort, hlong⟩
  obtain ⟨d, rfl⟩ := Nat.exists_eq_add_of_le hle
  clear hle
  induction d generalizing i with
  | zero =>
    rw [Nat.add_zero] at hlong ⊢
    rcases hlong with hlast | ⟨a, b, ha, hb, hab⟩
    · have : i = ks.length + 1 := by simpa using hlast
      subst this
      refine ⟨e, (k0 :: k1 :: ks)[ks.length + 1]'(by simp), e1, ?_, List.getElem?_eq_getElem _⟩
      rw [e3]
      exact List.getElem?_eq_getElem _
    · obtain ⟨s, n, s1, s2, s3, s4, s5⟩ := h5 i a b ha hb
      have hn : 0 < n := by
        rcases Nat.eq_zero_or_pos n with rfl | hn
        · simp only [Nat.cast_zero, zero_add, one_mul] at s4
          linarith
        · exact hn
      obtain ⟨r, r1, r2⟩ := s5 0 hn
      have hl : a.length = b.length := (hw a (List.mem_of_getElem? ha)).trans (hw b (List.mem_of_getElem? hb)).symm
      rw [Nat.cast_zero, zero_div, onLine_zero a b hl] at r2
      subst r2
      exact ⟨s, r, s1, r1, ha⟩
  | succ d ih =>
    have hj : i + (d + 1) < (k0 :: k1 :: ks).length := by
      rcases hlong with h | ⟨a, -, h, -⟩
      · omega
      · exact (List.getElem?_eq_some_iff.1 h).1
    have ha : (k0 :: k1 :: ks)[i]? = some ((k0 :: k1 :: ks)[i]'(by omega)) := List.getElem?_eq_getElem _
    have hb : (k0 :: k1 :: ks)[i + 1]? = some ((k0 :: k1 :: ks)[i + 1]'(by omega)) := List.getElem?_eq_getElem _
    obtain ⟨s, n, s1, s2, s3, s4, s5⟩ := h5 i _ _ ha hb
    have hlt := hshort i (le_refl i) (by omega) _ _ ha hb
    have hn : n = 0 := by
      by_contra hn
      have : (1 : ℝ) ≤ n := by exact_mod_cast Nat.one_le_iff_ne_zero.2 hn
      nlinarith
    subst hn
    rw [show i + (d + 1) = i + 1 + d by omega] at hshort hlong ⊢
    obtain ⟨s', v, a1, a2, a3⟩ := ih (i + 1) (fun m hm hm' => hshort m (by omega) hm') hlong
    refine ⟨s, v, s1, ?_, a3⟩
    rw [s2, Nat.add_zero, Option.some.injEq] at a1
    rw [a1]
    exact a2

theorem gatherRows_spec (rows : List Vec) (is : List Nat) (qs : List Vec) (hl : is.length = qs.length)
    (h : ∀ (i s : Nat), is[i]? = some s → rows[s]? = qs[i]?) : gatherRows rows is = .ok qs := by
  induction is generalizing qs with
  | nil =>
    have : qs = [] := List.eq_nil_of_length_eq_zero hl.symm
    subst this
    rfl
  | cons i is ih =>
    rcases qs with _ | ⟨q, qs⟩
    · simp at hl
    · unfold gatherRows
      have h0 := h 0 i rfl
      rw [h0, ih qs (by simpa using hl) fun j s hj => by simpa using h (j + 1) s (by simpa using hj)]
      rfl

/-- **C83** (points).  If neighboring points are at least one step apart, `path.points` are the given points. -/
theorem C83_points_partial (step : ℝ) (hs : 0 < step) (w : Nat) (k0 k1 : Vec) (ks : List Vec) (hw : ∀ v ∈ k0 :: k1 :: ks, v.length = w)
    (hl : AllLong step (k0 :: k1 :: ks)) : ∃ p, makePath step k0 k1 ks = .ok p ∧ p.points = .ok (k0 :: k1 :: ks) := by
  obtain ⟨p, h1, h2⟩ := C83_kept step hs w k0 k1 ks hw
  obtain ⟨p', h1', -, h3, -⟩ := C83_path step hs w k0 k1 ks hw
  rw [h1, Res.ok.injEq] at h1'
  subst h1'
  refine ⟨p, h1, gatherRows_spec _ _ _ (by simp [h3]) ?_⟩
  intro i s hi
  have hlt : i < (k0 :: k1 :: ks).length := by
    have := (List.getElem?_eq_some_iff.1 hi).1
    simp only [List.length_cons]
    omega
  obtain ⟨s', v, a1, a2, a3⟩ := h2 i i ⟨le_refl i, fun m _ _ => by omega, by
    rcases Nat.lt_or_ge (i + 1) (k0 :: k1 :: ks).length with h | h
    · exact .inr ⟨_, _, List.getElem?_eq_getElem hlt, List.getElem?_eq_getElem h, hl i _ _ (List.getElem?_eq_getElem hlt) (List.getElem?_eq_getElem h)⟩
    · exact .inl (by omega)⟩
  rw [hi, Option.some.injEq] at a1
  rw [a1, a2, a3]

theorem find_segment (f : Nat → Nat) (N r : Nat) (h0 : f 0 ≤ r) (hN : r < f N) : ∃ i < N, f i ≤ r ∧ r < f (i + 1) := by
  induction N with
  | zero => omega
  | succ N ih =>
    rcases Nat.lt_or_ge r (f N) with h | h
    · obtain ⟨i, h1, h2⟩ := ih h
      exact ⟨i, by omega, h2⟩
    · exact ⟨N, by omega, h, hN⟩

/-- Which segment a sample belongs to. -/
theorem segment_of (step : ℝ) (hs : 0 < step) (w : Nat) (k0 k1 : Vec) (ks : List Vec) (hw : ∀ v ∈ k0 :: k1 :: ks, v.length = w) :
    ∃ p, makePath step k0 k1 ks = .ok p ∧ ∀ r, r + 1 < p.rows.length →
      ∃ (i s n : Nat) (a b : Vec), (k0 :: k1 :: ks)[i]? = some a ∧ (k0 :: k1 :: ks)[i + 1]? = some b ∧ p.pointIndices[i]? = some s ∧ p.pointIndices[i + 1]? = some (s + n) ∧
        n * step ≤ dist a b ∧ dist a b < (n + 1) * step ∧ s ≤ r ∧ r < s + n ∧ ∀ t < n, ∃ r, p.rows[s + t]? = some r ∧ OnLine a b ((t : ℝ) / n) r := by
  obtain ⟨p, h1, h2, h3, h4, h5, e, e1, e2, e3⟩ := C83_path step hs w k0 k1 ks hw
  refine ⟨p, h1, ?_⟩
  intro r hr
  obtain ⟨i, hi, hi1, hi2⟩ := find_segment (fun i => p.pointIndices.getD i 0) (ks.length + 1) r
    (by rw [List.getD_eq_getElem?_getD, h4]; simp) (by rw [List.getD_eq_getElem?_getD, e1]; simp; omega)
  have ha : (k0 :: k1 :: ks)[i]? = some ((k0 :: k1 :: ks)[i]'(by simp; omega)) := List.getElem?_eq_getElem _
  have hb : (k0 :: k1 :: ks)[i + 1]? = some ((k0 :: k1 :: ks)[i + 1]'(by simp; omega)) := List.getElem?_eq_getElem _
  obtain ⟨s, n, s1, s2, s3, s4, s5⟩ := h5 i _ _ ha hb
  rw [List.getD_eq_getElem?_getD, s1] at hi1
  rw [List.getD_eq_getElem?_getD, s2] at hi2
  exact ⟨i, s, n, _, _, ha, hb, s1, s2, s3, s4, hi1, hi2, s5⟩

/-- **C83** (distances).  If neighboring points are at least one step apart, neighboring samples are at least one step and less than two steps apart. -/
theorem C83_spacing_partial (step : ℝ) (hs : 0 < step) (w : Nat) (k0 k1 : Vec) (ks : List Vec) (hw : ∀ v ∈ k0 :: k1 :: ks, v.length = w)
    (hl : AllLong step (k0 :: k1 :: ks)) :
    ∃ p, makePath step k0 k1 ks = .ok p ∧ ∀ (r : Nat) u v, p.rows[r]? = some u → p.rows[r + 1]? = some v → step ≤ dist u v ∧ dist u v < 2 * step := by
  obtain ⟨p, h1, h2⟩ := segment_of step hs w k0 k1 ks hw
  obtain ⟨p', h1', h3⟩ := C83_kept step hs w k0 k1 ks hw
  rw [h1, Res.ok.injEq] at h1'
  subst h1'
  refine ⟨p, h1, ?_⟩
  intro r u v hu hv
  obtain ⟨i, s, n, a, b, ha, hb, s1, s2, s3, s4, hsr, hrn, s5⟩ := h2 r (List.getElem?_eq_some_iff.1 hv).1
  have hab : a.length = b.length := (hw a (List.mem_of_getElem? ha)).trans (hw b (List.mem_of_getElem? hb)).symm
  have hn : (0 : ℝ) < n := by exact_mod_cast (by omega : 0 < n)
  obtain ⟨t, rfl⟩ := Nat.exists_eq_add_of_le hsr
  have hu' : OnLine a b ((t : ℝ) / n) u := by
    obtain ⟨q, q1, q2⟩ := s5 t (by omega)
    rw [q1, Option.some.injEq] at hu
    rw [← hu]
    exact q2
  have hv' : OnLine a b (((t + 1 : Nat) : ℝ) / n) v := by
    rcases Nat.lt_or_ge (t + 1) n with h | h
    · obtain ⟨q, q1, q2⟩ := s5 (t + 1) h
      rw [← Nat.add_assoc, hv, Option.some.injEq] at q1
      rw [q1]
      exact q2
    · have htn : t + 1 = n := by omega
      have hlt := (List.getElem?_eq_some_iff.1 hb).1
      obtain ⟨s', x, a1, a2, a3⟩ := h3 (i + 1) (i + 1) ⟨le_refl _, fun m _ _ => by omega, by
        rcases Nat.lt_or_ge (i + 1 + 1) (k0 :: k1 :: ks).length with h | h
        · exact .inr ⟨_, _, hb, List.getElem?_eq_getElem h, hl (i + 1) _ _ hb (List.getElem?_eq_getElem h)⟩
        · exact .inl (by omega)⟩
      rw [s2, Option.some.injEq] at a1
      rw [hb, Option.some.injEq] at a3
      rw [← a1, ← a3, ← htn, ← Nat.add_assoc, hv, Option.some.injEq] at a2
      rw [a2, htn, div_self hn.ne']
      exact onLine_one a b hab
  have hd := dist_line a b u v _ _ hab hu' hv'
  have : |((t + 1 : Nat) : ℝ) / n - (t : ℝ) / n| = 1 / n := by
    rw [Nat.cast_add, Nat.cast_one, add_div, add_sub_cancel_left, abs_of_pos (by positivity)]
  rw [hd, this]
  have h1n : (1 : ℝ) ≤ n := by exact_mod_cast (by omega : 1 ≤ n)
  constructor
  · rw [one_div, ← div_eq_inv_mul, le_div_iff₀ hn]
    linarith
  · rw [one_div, ← div_eq_inv_mul, div_lt_iff₀ hn]
    nlinarith

/-- **C83** (bands).  If neighboring points are at least one step apart, the bands at the index of a point are those of the model at this point (LAPACK and ARPACK; see C77). -/
theorem C83_bands_partial {Y : PyEnv} [LE Y.F] (hsort : Sorts Y.argsort) (setK : Vec → Y.Model → Y.Model) (hset : ∀ k k' m, setK k (setK k' m) = setK k m)
    (s : PySolver Y) (n : Nat) (hok : ∀ k, ∃ h l, Y.ham (setK k s.model) = .ok h ∧ Y.eig h = .ok l ∧ l.length = n)
    (step : ℝ) (hs : 0 < step) (w : Nat) (k0 k1 : Vec) (ks : List Vec) (hw : ∀ v ∈ k0 :: k1 :: ks, v.length = w) (hl : AllLong step (k0 :: k1 :: ks)) :
    ∃ p energy, makePath step k0 k1 ks = .ok p ∧ s.calcBands setK p.rows = .ok energy ∧ energy.length = p.rows.length ∧
      ∀ (i : Nat) k, (k0 :: k1 :: ks)[i]? = some k → ∃ j row, p.pointIndices[i]? = some j ∧ energy[j]? = some row ∧ IsSpectrum (setK k s.model) row := by
  obtain ⟨p, h1, -, -, -, -, e, -, e2, -⟩ := C83_path step hs w k0 k1 ks hw
  obtain ⟨p', h1', h3⟩ := C83_kept step hs w k0 k1 ks hw
  rw [h1, Res.ok.injEq] at h1'
  subst h1'
  obtain ⟨energy, b1, b2, b3⟩ := C77_python_partial hsort setK hset s p.rows (by intro h; rw [h] at e2; simp at e2) n fun k _ => hok k
  refine ⟨p, energy, h1, b1, b2, ?_⟩
  intro i k hk
  have hlt := (List.getElem?_eq_some_iff.1 hk).1
  obtain ⟨j, v, a1, a2, a3⟩ := h3 i i ⟨le_refl _, fun m _ _ => by omega, by
    rcases Nat.lt_or_ge (i + 1) (k0 :: k1 :: ks).length with h | h
    · exact .inr ⟨_, _, hk, List.getElem?_eq_getElem h, hl i _ _ hk (List.getElem?_eq_getElem h)⟩
    · exact .inl (by omega)⟩
  rw [hk, Option.some.injEq] at a3
  subst a3
  obtain ⟨row, c1, c2⟩ := b3 j k a2
  exact ⟨j, row, a1, c1, c2⟩

theorem firstNonzero_spec (l : List ℝ) (i0 : Nat) (h : ∃ x ∈ l, x ≠ 0) : ∃ c x, firstNonzero l i0 = .ok (i0 + c) ∧ l[c]? = some x ∧ x ≠ 0 := by
  induction l generalizing i0 with
  | nil => simp at h
  | cons y l ih =>
    unfold firstNonzero
    by_cases hy : y = 0
    · obtain ⟨x, hx, hx0⟩ := h
      rcases List.mem_cons.1 hx with rfl | hx
      · exact absurd hy hx0
      · obtain ⟨c, x, h1, h2, h3⟩ := ih (i0 + 1) ⟨x, hx, hx0⟩
        refine ⟨c + 1, x, ?_, h2, h3⟩
        rw [if_pos hy, h1]
        congr 1
        omega
    · exact ⟨0, y, by rw [if_neg hy]; rfl, rfl, hy⟩

/-- **C83** (one dimension).  For two different points, at least one step apart, `as_1d` gives one component of all samples, in which they are equally spaced and different. -/
theorem C83_as_1d_partial (step : ℝ) (hs : 0 < step) (w : Nat) (k0 k1 : Vec) (h0 : k0.length = w) (h1 : k1.length = w) (hl : step ≤ dist k0 k1) :
    ∃ (p : Path) (xs : List ℝ) (x0 dx : ℝ), makePath step k0 k1 [] = .ok p ∧ p.as1d = .ok xs ∧ xs.length = p.rows.length ∧ dx ≠ 0 ∧
      ∀ (r : Nat) x, xs[r]? = some x → x = x0 + r * dx := by
  have hw : ∀ v ∈ [k0, k1], v.length = w := by simp [h0, h1]
  have hall : AllLong step [k0, k1] := by
    intro i a b ha hb
    rcases i with _ | i
    · simp only [List.getElem?_cons_zero, List.getElem?_cons_succ, Option.some.injEq, Nat.zero_add] at ha hb
      rw [← ha, ← hb]
      exact hl
    · simp at hb
  obtain ⟨p, m1, m2, m3, m4, m5, e, e1, e2, e3⟩ := C83_path step hs w k0 k1 [] hw
  obtain ⟨p', m1', hp⟩ := C83_points_partial step hs w k0 k1 [] hw hall
  rw [m1, Res.ok.injEq] at m1'
  subst m1'
  obtain ⟨s, n, s1, s2, s3, s4, s5⟩ := m5 0 k0 k1 rfl rfl
  rw [m4, Option.some.injEq] at s1
  subst s1
  rw [List.length_nil, s2, Option.some.injEq, Nat.zero_add] at e1
  subst e1
  have hne : ∃ x ∈ List.zipWith (· - ·) k1 k0, x ≠ 0 := by
    by_contra hc
    push Not at hc
    have : dist k0 k1 = 0 := by
      rw [← norm_sub]
      unfold norm
      rw [List.sum_eq_zero, Real.sqrt_zero]
      intro y hy
      obtain ⟨x, hx, rfl⟩ := List.mem_map.1 hy
      rw [hc x hx, mul_zero]
    linarith
  obtain ⟨c, x, c1, c2, c3⟩ := firstNonzero_spec _ 0 hne
  rw [Nat.zero_add] at c1
  rw [List.getElem?_zipWith] at c2
  have hc0 : c < k0.length := by
    by_contra hc
    rw [List.getElem?_eq_none (by omega : k0.length ≤ c)] at c2
    cases hx : k1[c]? <;> rw [hx] at c2 <;> simp at c2
  have hk0 : k0[c]? = some k0[c] := List.getElem?_eq_getElem hc0
  have hk1 : k1[c]? = some (k1[c]'(by omega)) := List.getElem?_eq_getElem _
  rw [hk0, hk1] at c2
  simp only [Option.some.injEq] at c2
  have hn : 0 < n := by
    rcases Nat.eq_zero_or_pos n with rfl | hn
    · simp only [Nat.cast_zero, zero_add, one_mul] at s4
      linarith
    · exact hn
  have hnr : (0 : ℝ) < n := by exact_mod_cast hn
  refine ⟨p, p.rows.map fun r => r.getD c 0, k0[c], x / n, m1, ?_, by simp, div_ne_zero c3 hnr.ne', ?_⟩
  · unfold Path.as1d
    rw [if_pos (by simpa using m3), hp, Res.bind_ok]
    simp only [List.getD_cons_zero, List.getD_cons_succ]
    rw [c1]
    rfl
  · intro r y hy
    rw [List.getElem?_map, Option.map_eq_some_iff] at hy
    obtain ⟨row, hrow, rfl⟩ := hy
    have hrl := (List.getElem?_eq_some_iff.1 hrow).1
    have hline : OnLine k0 k1 ((r : ℝ) / n) row := by
      rcases Nat.lt_or_ge r n with h | h
      · obtain ⟨q, q1, q2⟩ := s5 r h
        rw [Nat.zero_add, hrow, Option.some.injEq] at q1
        rw [q1]
        exact q2
      · have : r = n := by omega
        subst this
        rw [hrow] at e3
        simp only [List.length_nil, Nat.zero_add, List.getElem?_cons_succ, List.getElem?_cons_zero, Option.some.injEq] at e3
        rw [e3, div_self hnr.ne']
        exact onLine_one k0 k1 (h0.trans h1.symm)
    rw [List.getD_eq_getElem?_getD, hline.2 c _ _ hk0 hk1, Option.getD_some, c2]
    ring

/-! ## Where paths are wrong -/

/-- **C83** (short segments): two points which are less than one step apart give a path with the second one only, and `as_1d` (hence `Bands.plot`) raises an error. -/
theorem C83_short_witness (step : ℝ) (w : Nat) (k0 k1 : Vec) (h0 : k0.length = w) (h1 : k1.length = w) (hl : dist k0 k1 < step) :
    makePath step k0 k1 [] = .ok ⟨[k1], [0, 0]⟩ ∧ (Path.mk [k1] [0, 0]).points = .ok [k1, k1] ∧ (Path.mk [k1] [0, 0]).as1d = .err .outOfRange := by
  have hs : 0 < step := lt_of_le_of_lt (dist_nonneg _ _) hl
  have hn : numSteps (dist k0 k1) step = .ok 0 := by
    obtain ⟨n, n1, n2, n3⟩ := numSteps_spec (dist k0 k1) step (dist_nonneg _ _) hs
    rcases Nat.eq_zero_or_pos n with rfl | hn
    · exact n1
    · have : (1 : ℝ) ≤ n := by exact_mod_cast hn
      nlinarith
  refine ⟨?_, rfl, ?_⟩
  · unfold makePath
    rw [if_pos (by simp)]
    unfold loop loop
    rw [sub_eq k0 k1 (h0.trans h1.symm), Res.bind_ok, norm_sub, hn, Res.bind_ok, Res.bind_ok]
    simp only [segment, List.range_zero, List.map_nil, h0, h1, min_self]
    unfold vstack
    simp
  · have hz : ∀ (v : Vec) i, firstNonzero (List.zipWith (· - ·) v v) i = .err .outOfRange := by
      intro v
      induction v with
      | nil => intro i; rfl
      | cons x v ih =>
        intro i
        rw [List.zipWith_cons_cons]
        unfold firstNonzero
        rw [if_pos (sub_self x)]
        exact ih _
    unfold Path.as1d
    rw [if_pos (by rfl)]
    change (Res.ok [k1, k1] >>= _) = _
    rw [Res.bind_ok]
    simp only [List.getD_cons_zero, List.getD_cons_succ]
    rw [hz k1 0]
    rfl

/-- **C83** (components): a point with two components followed by one with a single component is not an error: the path has one component. -/
theorem C83_shape_witness (step : ℝ) (hs : 0 < step) (a b c : ℝ) : ∃ p, makePath step [a, b] [c] [] = .ok p ∧ ∀ r ∈ p.rows, r.length = 1 := by
  obtain ⟨n, n1, -⟩ := numSteps_spec (norm [c - a, c - b]) step (Real.sqrt_nonneg _) hs
  refine ⟨⟨(List.range n).map (sample [a, b] [c] n) ++ [[c]], [0, 0 + n]⟩, ?_, ?_⟩
  · unfold makePath
    rw [if_pos (by simp)]
    unfold loop loop
    have : sub [c] [a, b] = .ok [c - a, c - b] := by simp [sub]
    rw [this, Res.bind_ok, n1, Res.bind_ok, Res.bind_ok]
    rfl
  · intro r hr
    rcases List.mem_append.1 hr with hr | hr
    · obtain ⟨i, -, rfl⟩ := List.mem_map.1 hr
      simp [sample]
    · rw [List.mem_singleton.1 hr]
      rfl

/-- **C83** (components): points with different numbers of components, both not one, are an error. -/
theorem C83_shape (step : ℝ) (k0 k1 : Vec) (ks : List Vec) (h : k0.length ≠ k1.length) (h0 : k0.length ≠ 1) (h1 : k1.length ≠ 1) :
    makePath step k0 k1 ks = .err .invalidArgument := by
  unfold makePath
  rw [if_pos (by simp)]
  unfold loop
  have : sub k1 k0 = .err .invalidArgument := by
    unfold sub
    rw [if_neg (Ne.symm h), if_neg h1, if_neg h0]
  rw [this]
  rfl

/-- **C83** (steps): a step of zero is an error. -/
theorem C83_step (w : Nat) (k0 k1 : Vec) (ks : List Vec) (h0 : k0.length = w) (h1 : k1.length = w) : makePath 0 k0 k1 ks = .err .invalidArgument := by
  unfold makePath
  rw [if_pos (by simp)]
  unfold loop
  rw [sub_eq k0 k1 (h0.trans h1.symm), Res.bind_ok]
  unfold numSteps
  rw [if_pos rfl]
  rfl

/-- **C83** (parts): a part of a path keeps the indices of the points of the whole one; after the first sample is cut off, the points are those which follow them. -/
theorem C83_part_witness (a b c d : Vec) :
    (Path.mk [a, b, c, d] [0, 2]).points = .ok [a, c] ∧ ((Path.mk [a, b, c, d] [0, 2]).get (.slice (some 1) none 1)).bind Path.points = .ok [b, d] ∧
    ((Path.mk [a, b, c, d] [0, 3]).get (.slice (some 1) none 1)).bind Path.points = .err .outOfRange := by
  refine ⟨rfl, rfl, rfl⟩

/-! ## Examples -/

/-- Three points of a plane with the step 1. -/
example : (∀ v ∈ [[(0 : ℝ), 0], [2, 0], [2, 1]], v.length = 2) ∧ AllLong 1 [[0, 0], [2, 0], [2, 1]] := by
  refine ⟨by simp, ?_⟩
  intro i a b ha hb
  rcases i with _ | _ | i
  · simp only [List.getElem?_cons_zero, List.getElem?_cons_succ, Option.some.injEq, Nat.zero_add] at ha hb
    subst ha
    subst hb
    unfold dist
    rw [Real.le_sqrt' (by norm_num)]
    norm_num
  · simp only [List.getElem?_cons_zero, List.getElem?_cons_succ, Option.some.injEq, Nat.zero_add] at ha hb
    subst ha
    subst hb
    unfold dist
    rw [Real.le_sqrt' (by norm_num)]
    norm_num
  · simp at hb

/-- Of the points 0, 0.5 and 2 with the step 1, the first is lost. -/
example : Kept 1 [[(0 : ℝ)], [1 / 2], [2]] 0 1 := by
  refine ⟨by omega, ?_, .inr ⟨[1 / 2], [2], rfl, rfl, ?_⟩⟩
  · intro m _ hm a b ha hb
    have : m = 0 := by omega
    subst this
    simp only [List.getElem?_cons_zero, List.getElem?_cons_succ, Option.some.injEq, Nat.zero_add] at ha hb
    subst ha
    subst hb
    unfold dist
    rw [Real.sqrt_lt' (by norm_num)]
    norm_num
  · unfold dist
    rw [Real.le_sqrt' (by norm_num)]
    norm_num

end Verif.Solver.Paths
