import Verif.Kpm.FloatContracts

/-!
# Diagonal moments in floating-point arithmetic

The kernels which also add up `m2` and `m3`, the collector and the loops of the diagonal algorithms, with every operation rounded.  The order in which a scalar
product is added up is different for every kernel (Eigen's reductions, SIMD lanes, the scalar rows before and after the vectors), so it is a parameter here: a
tree of additions for every call.
-/

namespace Verif.Kpm.Float

open Verif.Numeric Finset

/-! ## Model -/

/-- How a sum of products is computed: `start` is the value of the variable before the statement, `term p` is product number `p`, `add` is an addition and
`fused l p` is `simd::madd_rc` with product number `p`.  compute/kernel_polynomial.hpp:63-65, 241-285 (`m2 +=`, `m3 +=`, the SIMD accumulators and `reduce_add_rc`);
Eigen's `squaredNorm` and `dot`. -/
inductive Order where
  | zero
  | start
  | term (p : Nat)
  | add (l r : Order)
  | fused (l : Order) (p : Nat)

/-- The numbers of the products in the tree of `compute/kernel_polynomial.hpp:63-65, 241-285`. -/
def Order.terms : Order → List Nat
  | .zero => []
  | .start => []
  | .term p => [p]
  | .add l r => l.terms ++ r.terms
  | .fused l p => p :: l.terms

/-- How often the old value is used; compute/kernel_polynomial.hpp:63-65, 241-285. -/
def Order.starts : Order → Nat
  | .zero => 0
  | .start => 1
  | .term _ => 0
  | .add l r => l.starts + r.starts
  | .fused l _ => l.starts

/-- The largest number of additions that a product goes through; compute/kernel_polynomial.hpp:63-65, 241-285. -/
def Order.depth : Order → Nat
  | .zero => 0
  | .start => 0
  | .term _ => 0
  | .add l r => max l.depth r.depth + 1
  | .fused l _ => l.depth + 1

/-- The rounded value of the sum, the products being `a p * b p`; compute/kernel_polynomial.hpp:63-65, 241-285. -/
noncomputable def Order.value (R : Rounding) (fma : Bool) (m : ℂ) (a b : Nat → ℂ) : Order → ℂ
  | .zero => 0
  | .start => m
  | .term p => R.mul (a p) (b p)
  | .add l r => R.add (l.value R fma m a b) (r.value R fma m a b)
  | .fused l p => R.madd fma (a p) (b p) (l.value R fma m a b)

/-- The tree adds up exactly the products `l`, and the old value `k` times; products with a factor that is surely zero (the imaginary parts of real scalars) may be left out. -/
structure Order.Sums (o : Order) (k : Nat) (l : List Nat) (a : Nat → ℂ) : Prop where
  starts : o.starts = k
  terms : ∃ keep : Nat → Bool, o.terms.Perm (l.filter keep) ∧ ∀ p ∈ l, keep p = false → a p = 0

/-- The real and imaginary parts of a vector one after the other: the squares of both are added up. `detail::square`, compute/detail.hpp:40-46 and the SIMD version
`m2_vec + r1 * r1` followed by `reduce_imag`; kernel_polynomial.hpp:252, 266, 283. -/
noncomputable def parts {n : Nat} (x : Fin n → ℂ) (p : Nat) : ℂ := if p % 2 = 0 then ((ex x (p / 2)).re : ℂ) else ((ex x (p / 2)).im : ℂ)

/-- The orders of the sums: for the kernels (`sq`, `dot`: rows `start` to `stop`, `x` and the new `y`) and for the collector's first two moments (`sq0`, `dot0`).
compute/kernel_polynomial.hpp:63-65, 241-285; collectors.cpp:7-8. -/
structure Orders (n : Nat) where
  sq : Nat → Nat → (Fin n → ℂ) → (Fin n → ℂ) → Order
  dot : Nat → Nat → (Fin n → ℂ) → (Fin n → ℂ) → Order
  sq0 : (Fin n → ℂ) → Order
  dot0 : (Fin n → ℂ) → (Fin n → ℂ) → Order

/-- Every sum has all of its products.  The depth of a sum over the rows from `a` to `b` is at most `F b - F a + d`. -/
structure Orders.Valid {n : Nat} (ord : Orders n) (F : Nat → Nat) (d : Nat) : Prop where
  mono : Monotone F
  sq : ∀ a b x y, a ≤ b → b ≤ n → (ord.sq a b x y).Sums 1 (List.range' (2 * a) (2 * (b - a))) (parts x) ∧ (ord.sq a b x y).depth + F a ≤ F b + d
  dot : ∀ a b x y, a ≤ b → b ≤ n → (ord.dot a b x y).Sums 1 (List.range' a (b - a)) (fun i => star (ex y i)) ∧ (ord.dot a b x y).depth + F a ≤ F b + d
  sq0 : ∀ x, (ord.sq0 x).Sums 0 (List.range' 0 (2 * n)) (parts x) ∧ (ord.sq0 x).depth ≤ F n + d
  dot0 : ∀ x y, (ord.dot0 x y).Sums 0 (List.range' 0 n) (fun i => star (ex y i)) ∧ (ord.dot0 x y).depth ≤ F n + d

section kernels

variable {n : Nat} (R : Rounding) (fma : Bool) (ord : Orders n)

/-- The multiplication inside `kpm_spmv_diagonal` for ELLPACK matrices, vectorised: all columns but the last, then the last one.  `&matrix.data(0, -1)` is read
when the matrix has no columns.  compute/kernel_polynomial.hpp:220-285. -/
noncomputable def diagSimd (e : Ell ℂ) (aligned : Nat → Bool) (step : Nat) (start stop : Nat) (x y : Fin n → ℂ) : Res (Fin n → ℂ) :=
  if e.nnzPerRow = 0 then .ub
  else do
    let l := splitLoop aligned step start stop
    let y ← (List.range (e.nnzPerRow - 1)).foldlM (fun y k => column (R.ops fma) e k step l x y) y
    column (R.ops fma) e (e.nnzPerRow - 1) step l x y

/-- `kpm_spmv_diagonal`: the multiplication and the sums `m2 += |x|^2`, `m3 += dot(y, x)` over the same rows.  compute/kernel_polynomial.hpp:58-66, 199-207, 220-285. -/
noncomputable def diagKernel (spmv : Nat → Nat → (Fin n → ℂ) → (Fin n → ℂ) → Res (Fin n → ℂ)) (start stop : Nat) (x y : Fin n → ℂ) (m2 m3 : ℂ) :
    Res (DiagOut n ℂ) :=
  if stop < start ∨ n < stop then .ub
  else do
    let y ← spmv start stop x y
    return ⟨y, (ord.sq start stop x y).value R fma m2 (parts x) (parts x), (ord.dot start stop x y).value R fma m3 (fun i => star (ex y i)) (ex x)⟩

/-- The matrix that the diagonal algorithms work with; kpm/OptimizedHamiltonian.cpp:33-36, compute/kernel_polynomial.hpp:58-66, 199-207, 220-285. -/
noncomputable def Kernels.diagMat (f : Kernels n) (m : Raw ℂ) : Res (Mat n ℂ) :=
  match f with
  | .csr junk => .ok ⟨spmvCsr (R.ops fma) m, diagKernel R fma ord (spmvCsr (R.ops fma) m), r1Csr (R.ops fma) junk m⟩
  | .ell ds is d0 i0 => do
    let e ← csrToEll ds is d0 i0 m
    return ⟨spmvEll (R.ops fma) e, diagKernel R fma ord (spmvEll (R.ops fma) e), r1Ell (R.ops fma) e⟩
  | .simd ds is d0 i0 aligned step => do
    let e ← csrToEll ds is d0 i0 m
    return ⟨fun start stop x y => spmvSimd (R.ops fma) e (aligned start stop x y) step start stop x y,
      diagKernel R fma ord fun start stop x y => diagSimd R fma e (aligned start stop x y) step start stop x y, r1Ell (R.ops fma) e⟩

/-- `DiagonalCollector::initial`, collectors.cpp:5-9. -/
noncomputable def diagInitial (c : DiagCol ℂ) (r0 r1 : Fin n → ℂ) : Res (DiagCol ℂ) := do
  let m0 := R.mul ((ord.sq0 r0).value R fma 0 (parts r0) (parts r0)) (1 / 2)
  let ms ← wr c.moments 0 m0
  let m1 := (ord.dot0 r0 r1).value R fma 0 (fun i => star (ex r1 i)) (ex r0)
  let ms ← wr ms 1 m1
  return ⟨ms, m0, m1⟩

/-- `DiagonalCollector::operator()`, collectors.cpp:11-15. -/
noncomputable def diagCollect (c : DiagCol ℂ) (k : Nat) (m2 m3 : ℂ) : Res (DiagCol ℂ) := do
  let ms ← wr c.moments (2 * (k - 1)) (R.mul 2 (R.sub m2 c.m0))
  let ms ← wr ms (2 * (k - 1) + 1) (R.sub (R.mul 2 m3) c.m1)
  return { c with moments := ms }

/-- One iteration of `basic`, kpm/calc_moments.hpp:42-50. -/
noncomputable def diagStep (M : Mat n ℂ) (map : SliceMap) (opt : Bool) (num : Nat) (s : St n ℂ (DiagCol ℂ)) (k : Nat) : Res (St n ℂ (DiagCol ℂ)) := do
  let size ← sizeFor n map opt k num
  let o ← M.diag 0 size s.r1 s.r0 0 0
  let c ← diagCollect R s.col k o.m2 o.m3
  return ⟨c, s.r1, o.y⟩

/-- `basic`, diagonal, kpm/calc_moments.hpp:35-51. -/
noncomputable def diagLoop (M : Mat n ℂ) (map : SliceMap) (opt : Bool) (c : DiagCol ℂ) (r0 r1 : Fin n → ℂ) : Res (DiagCol ℂ) := do
  let num := c.moments.length
  let s ← (List.range' 2 (num / 2 - 1)).foldlM (diagStep R M map opt num) ⟨c, r0, r1⟩
  return s.col

/-- One iteration of the outer loop of `interleaved`, kpm/calc_moments.hpp:70-88. -/
noncomputable def diagPairStep (M : Mat n ℂ) (map : SliceMap) (opt : Bool) (num : Nat) (s : St n ℂ (DiagCol ℂ)) (k : Nat) : Res (St n ℂ (DiagCol ℂ)) := do
  let max1 := ilMax map opt k num
  let max2 := ilMax map opt (k + 1) num
  let r ← (List.range (max1 + 1).toNat).foldlM (diagIlStep M map max1 max2) ⟨s.r0, s.r1, 0, 0, 0, 0, 0, 0⟩
  let c ← diagCollect R s.col k r.m2 r.m3
  let c ← diagCollect R c (k + 1) r.m4 r.m5
  return ⟨c, r.r0, r.r1⟩

/-- `interleaved`, diagonal, kpm/calc_moments.hpp:61-89. -/
noncomputable def diagPairLoop (M : Mat n ℂ) (map : SliceMap) (opt : Bool) (c : DiagCol ℂ) (r0 r1 : Fin n → ℂ) : Res (DiagCol ℂ) := do
  let num := c.moments.length
  let s ← (List.range' 2 (num / 2 / 2) 2).foldlM (diagPairStep R M map opt num) ⟨c, r0, r1⟩
  return s.col

/-- `with` for the diagonal collector, default/Compute.cpp:24-44. -/
noncomputable def withDiagonal (M : Mat n ℂ) (map : SliceMap) (cfg : AlgorithmConfig) (moments : List ℂ) (r0 : Fin n → ℂ) : Res (List ℂ) := do
  let r1 ← M.r1 r0
  let c ← diagInitial R fma ord ⟨moments, 0, 0⟩ r0 r1
  let c ← if cfg.interleaved then diagPairLoop R M map cfg.optimalSize c r0 r1 else diagLoop R M map cfg.optimalSize c r0 r1
  return c.moments

end kernels

/-! ## The error of a sum -/

section sums

variable {R : Rounding} {fma : Bool}

theorem pow_sub_nonneg {u : ℝ} (hu : 0 ≤ u) (k : Nat) : 0 ≤ (1 + u) ^ k - 1 := by
  linarith [one_le_pow₀ (show (1 : ℝ) ≤ 1 + u by linarith) (n := k)]

theorem Order.near (m : ℂ) (a b : Nat → ℂ) (o : Order) :
    ‖o.value R fma m a b - (o.starts * m + (o.terms.map fun p => a p * b p).sum)‖ ≤
      ((1 + R.unit) ^ (o.depth + 5) - 1) * (o.starts * ‖m‖ + (o.terms.map fun p => ‖a p‖ * ‖b p‖).sum) := by
  have hu := R.unit_nonneg
  have hp : (1 : ℝ) ≤ 1 + R.unit := by linarith
  have hs : ∀ o : Order, ‖(o.starts * m + (o.terms.map fun p => a p * b p).sum : ℂ)‖ ≤ o.starts * ‖m‖ + (o.terms.map fun p => ‖a p‖ * ‖b p‖).sum := by
    intro o
    refine (norm_add_le _ _).trans (add_le_add (by rw [norm_mul, Complex.norm_natCast]) ?_)
    generalize o.terms = l
    induction l with
    | nil => simp
    | cons p l ih =>
      rw [List.map_cons, List.map_cons, List.sum_cons, List.sum_cons]
      exact (norm_add_le _ _).trans (add_le_add (norm_mul _ _).le ih)
  have hs0 : ∀ o : Order, 0 ≤ (o.starts : ℝ) * ‖m‖ + (o.terms.map fun p => ‖a p‖ * ‖b p‖).sum := fun o => (norm_nonneg _).trans (hs o)
  have grow : ∀ {k l : Nat}, k ≤ l → (1 + R.unit) ^ k ≤ (1 + R.unit) ^ l := fun h => pow_le_pow_right₀ hp h
  induction o with
  | zero => simp [Order.value, Order.starts, Order.terms]
  | start =>
    simp only [Order.value, Order.starts, Order.terms, List.map_nil, List.sum_nil, Nat.cast_one, one_mul, add_zero, sub_self, norm_zero]
    exact mul_nonneg (pow_sub_nonneg hu _) (norm_nonneg _)
  | term p =>
    simp only [Order.value, Order.starts, Order.terms, List.map_cons, List.map_nil, List.sum_cons, List.sum_nil, Nat.cast_zero, zero_mul, zero_add, add_zero]
    refine (R.mul_near _ _).trans (mul_le_mul_of_nonneg_right ?_ (by positivity))
    linarith [grow (show 4 ≤ (Order.term p).depth + 5 by omega)]
  | add l r ihl ihr =>
    have e : ((Order.add l r).starts * m + ((Order.add l r).terms.map fun p => a p * b p).sum : ℂ) =
        (l.starts * m + (l.terms.map fun p => a p * b p).sum) + (r.starts * m + (r.terms.map fun p => a p * b p).sum) := by
      simp only [Order.starts, Order.terms, List.map_append, List.sum_append]
      push_cast
      ring
    have e' : ((Order.add l r).starts * ‖m‖ + ((Order.add l r).terms.map fun p => ‖a p‖ * ‖b p‖).sum : ℝ) =
        (l.starts * ‖m‖ + (l.terms.map fun p => ‖a p‖ * ‖b p‖).sum) + (r.starts * ‖m‖ + (r.terms.map fun p => ‖a p‖ * ‖b p‖).sum) := by
      simp only [Order.starts, Order.terms, List.map_append, List.sum_append]
      push_cast
      ring
    rw [e, e']
    set L : ℂ := l.starts * m + (l.terms.map fun p => a p * b p).sum
    set Q : ℂ := r.starts * m + (r.terms.map fun p => a p * b p).sum
    set SL : ℝ := l.starts * ‖m‖ + (l.terms.map fun p => ‖a p‖ * ‖b p‖).sum
    set SQ : ℝ := r.starts * ‖m‖ + (r.terms.map fun p => ‖a p‖ * ‖b p‖).sum
    have hL : ‖L‖ ≤ SL := hs l
    have hQ : ‖Q‖ ≤ SQ := hs r
    have hSL : 0 ≤ SL := hs0 l
    have hSQ : 0 ≤ SQ := hs0 r
    set D := max l.depth r.depth + 5 with hD
    have il : ‖l.value R fma m a b - L‖ ≤ ((1 + R.unit) ^ D - 1) * SL :=
      ihl.trans (mul_le_mul_of_nonneg_right (by linarith [grow (show l.depth + 5 ≤ D by omega)]) hSL)
    have ir : ‖r.value R fma m a b - Q‖ ≤ ((1 + R.unit) ^ D - 1) * SQ :=
      ihr.trans (mul_le_mul_of_nonneg_right (by linarith [grow (show r.depth + 5 ≤ D by omega)]) hSQ)
    have hr := R.parts (l.value R fma m a b + r.value R fma m a b)
    have ev : (Order.add l r).value R fma m a b =
        ⟨R.fl (l.value R fma m a b + r.value R fma m a b).re, R.fl (l.value R fma m a b + r.value R fma m a b).im⟩ := rfl
    rw [ev]
    set v := l.value R fma m a b
    set w := r.value R fma m a b
    have hsum : ‖(v + w) - (L + Q)‖ ≤ ((1 + R.unit) ^ D - 1) * (SL + SQ) := by
      rw [show (v + w) - (L + Q) = (v - L) + (w - Q) by ring, mul_add]
      exact (norm_add_le _ _).trans (add_le_add il ir)
    have hvw : ‖v + w‖ ≤ (1 + R.unit) ^ D * (SL + SQ) := by
      have h1 := norm_add_le ((v + w) - (L + Q)) (L + Q)
      rw [sub_add_cancel] at h1
      have h2 := norm_add_le L Q
      linarith
    have h3 := norm_add_le ((⟨R.fl (v + w).re, R.fl (v + w).im⟩ : ℂ) - (v + w)) ((v + w) - (L + Q))
    rw [sub_add_sub_cancel] at h3
    have h4 := mul_le_mul_of_nonneg_left hvw hu
    have e5 : (1 + R.unit) ^ ((Order.add l r).depth + 5) = (1 + R.unit) ^ D * (1 + R.unit) := by
      rw [← pow_succ, show (Order.add l r).depth + 5 = D + 1 by simp only [Order.depth, hD]]
    rw [e5]
    nlinarith
  | fused l p ih =>
    have e : ((Order.fused l p).starts * m + ((Order.fused l p).terms.map fun p => a p * b p).sum : ℂ) =
        (l.starts * m + (l.terms.map fun p => a p * b p).sum) + a p * b p := by
      simp only [Order.starts, Order.terms, List.map_cons, List.sum_cons]
      ring
    have e' : ((Order.fused l p).starts * ‖m‖ + ((Order.fused l p).terms.map fun p => ‖a p‖ * ‖b p‖).sum : ℝ) =
        (l.starts * ‖m‖ + (l.terms.map fun p => ‖a p‖ * ‖b p‖).sum) + ‖a p‖ * ‖b p‖ := by
      simp only [Order.starts, Order.terms, List.map_cons, List.sum_cons]
      ring
    rw [e, e']
    set L : ℂ := l.starts * m + (l.terms.map fun p => a p * b p).sum
    set SL : ℝ := l.starts * ‖m‖ + (l.terms.map fun p => ‖a p‖ * ‖b p‖).sum
    have hL : ‖L‖ ≤ SL := hs l
    have hSL : 0 ≤ SL := hs0 l
    have hr := (R.ops_good fma).madd (a p) (b p) (l.value R fma m a b)
    have ev : (Order.fused l p).value R fma m a b = (R.ops fma).madd (a p) (b p) (l.value R fma m a b) := rfl
    rw [ev]
    set v := l.value R fma m a b
    have hab : 0 ≤ ‖a p‖ * ‖b p‖ := by positivity
    have hv : ‖v‖ ≤ (1 + R.unit) ^ (l.depth + 5) * SL := by
      have h1 := norm_add_le (v - L) L
      rw [sub_add_cancel] at h1
      linarith
    have h3 := norm_add_le ((R.ops fma).madd (a p) (b p) v - (v + a p * b p)) (v - L)
    rw [show (R.ops fma).madd (a p) (b p) v - (v + a p * b p) + (v - L) = (R.ops fma).madd (a p) (b p) v - (L + a p * b p) by ring] at h3
    have h4 := mul_le_mul_of_nonneg_left hv hu
    have e5 : (1 + R.unit) ^ ((Order.fused l p).depth + 5) = (1 + R.unit) ^ (l.depth + 5) * (1 + R.unit) := by
      rw [← pow_succ, show (Order.fused l p).depth + 5 = l.depth + 5 + 1 by simp only [Order.depth]]
    have h6 : (1 + R.unit) ^ 5 ≤ (1 + R.unit) ^ (l.depth + 5) * (1 + R.unit) := by
      rw [← pow_succ]
      exact grow (by omega)
    have h7 := mul_le_mul_of_nonneg_right h6 hab
    rw [e5]
    nlinarith

end sums

/-! ## Scalar products -/

section dots

variable {n : Nat}

/-- The sum of the magnitudes of the products of a scalar product. -/
noncomputable def normOn (a b : Nat) (y x : Fin n → ℂ) : ℝ := ∑ i, if a ≤ i.val ∧ i.val < b then ‖y i‖ * ‖x i‖ else 0

/-- `m'` is `m` and the scalar product over the rows from `a` to `b`, up to rounding. -/
def Summed (u : ℝ) (k a b : Nat) (y x : Fin n → ℂ) (m m' : ℂ) : Prop := ‖m' - (m + dotOn a b y x)‖ ≤ ((1 + u) ^ k - 1) * (‖m‖ + normOn a b y x)

theorem normOn_nonneg (a b : Nat) (y x : Fin n → ℂ) : 0 ≤ normOn a b y x := by
  unfold normOn
  refine Finset.sum_nonneg fun i _ => ?_
  split <;> positivity

theorem norm_dotOn_le (a b : Nat) (y x : Fin n → ℂ) : ‖dotOn a b y x‖ ≤ normOn a b y x := by
  unfold dotOn normOn
  refine (norm_sum_le _ _).trans (Finset.sum_le_sum fun i _ => ?_)
  split
  · rw [norm_mul, norm_star]
  · rw [norm_zero]

theorem dotOn_split {a b c : Nat} (h1 : a ≤ b) (h2 : b ≤ c) (y x : Fin n → ℂ) : dotOn a c y x = dotOn a b y x + dotOn b c y x := by
  unfold dotOn
  rw [← Finset.sum_add_distrib]
  refine Finset.sum_congr rfl fun i _ => ?_
  by_cases h : i.val < b
  · by_cases h' : a ≤ i.val
    · rw [if_pos ⟨h', by omega⟩, if_pos ⟨h', h⟩, if_neg (by omega), add_zero]
    · rw [if_neg (by omega), if_neg (by omega), if_neg (by omega), add_zero]
  · by_cases h' : i.val < c
    · rw [if_pos ⟨by omega, h'⟩, if_neg (by omega), if_pos ⟨by omega, h'⟩, zero_add]
    · rw [if_neg (by omega), if_neg (by omega), if_neg (by omega), add_zero]

theorem normOn_split {a b c : Nat} (h1 : a ≤ b) (h2 : b ≤ c) (y x : Fin n → ℂ) : normOn a c y x = normOn a b y x + normOn b c y x := by
  unfold normOn
  rw [← Finset.sum_add_distrib]
  refine Finset.sum_congr rfl fun i _ => ?_
  by_cases h : i.val < b
  · by_cases h' : a ≤ i.val
    · rw [if_pos ⟨h', by omega⟩, if_pos ⟨h', h⟩, if_neg (by omega), add_zero]
    · rw [if_neg (by omega), if_neg (by omega), if_neg (by omega), add_zero]
  · by_cases h' : i.val < c
    · rw [if_pos ⟨by omega, h'⟩, if_neg (by omega), if_pos ⟨by omega, h'⟩, zero_add]
    · rw [if_neg (by omega), if_neg (by omega), if_neg (by omega), add_zero]

theorem Summed.congr {u : ℝ} {k a b : Nat} {y x y' x' : Fin n → ℂ} {m m' : ℂ} (h : Summed u k a b y x m m') (hy : ∀ i : Fin n, a ≤ i.val → i.val < b → y' i = y i)
    (hx : ∀ i : Fin n, a ≤ i.val → i.val < b → x' i = x i) : Summed u k a b y' x' m m' := by
  have e1 : dotOn a b y' x' = dotOn a b y x := by
    unfold dotOn
    refine Finset.sum_congr rfl fun i _ => ?_
    split
    · rename_i hi; rw [hy i hi.1 hi.2, hx i hi.1 hi.2]
    · rfl
  have e2 : normOn a b y' x' = normOn a b y x := by
    unfold normOn
    refine Finset.sum_congr rfl fun i _ => ?_
    split
    · rename_i hi; rw [hy i hi.1 hi.2, hx i hi.1 hi.2]
    · rfl
  unfold Summed
  rw [e1, e2]
  exact h

theorem Summed.mono {u : ℝ} (hu : 0 ≤ u) {k l a b : Nat} (hkl : k ≤ l) {y x : Fin n → ℂ} {m m' : ℂ} (h : Summed u k a b y x m m') : Summed u l a b y x m m' := by
  refine le_trans h (mul_le_mul_of_nonneg_right ?_ (add_nonneg (norm_nonneg _) (normOn_nonneg ..)))
  linarith [pow_le_pow_right₀ (show (1 : ℝ) ≤ 1 + u by linarith) hkl]

theorem Summed.join {u : ℝ} (hu : 0 ≤ u) {k l a b c : Nat} (h1 : a ≤ b) (h2 : b ≤ c) {y x : Fin n → ℂ} {m m' m'' : ℂ} (h : Summed u k a b y x m m')
    (h' : Summed u l b c y x m' m'') : Summed u (k + l) a c y x m m'' := by
  unfold Summed at *
  rw [dotOn_split h1 h2, normOn_split h1 h2, pow_add]
  have p1 := pow_sub_nonneg hu k
  have p2 := pow_sub_nonneg hu l
  set A := (1 + u) ^ k
  set B := (1 + u) ^ l
  set D1 := dotOn a b y x
  set D2 := dotOn b c y x
  have n1 : 0 ≤ normOn a b y x := normOn_nonneg ..
  have n2 : 0 ≤ normOn b c y x := normOn_nonneg ..
  have d1 : ‖D1‖ ≤ normOn a b y x := norm_dotOn_le ..
  set N1 := normOn a b y x
  set N2 := normOn b c y x
  have hm := norm_nonneg m
  have hm' : ‖m'‖ ≤ A * (‖m‖ + N1) := by
    have t1 := norm_add_le (m' - (m + D1)) (m + D1)
    rw [sub_add_cancel] at t1
    have t2 := norm_add_le m D1
    linarith
  have t := norm_add_le (m'' - (m' + D2)) (m' - (m + D1))
  rw [show m'' - (m' + D2) + (m' - (m + D1)) = m'' - (m + (D1 + D2)) by ring] at t
  have t2 := mul_le_mul_of_nonneg_left hm' p2
  have t3 : (B - 1) * N2 ≤ (A * B - 1) * N2 := by
    refine mul_le_mul_of_nonneg_right ?_ n2
    nlinarith
  have e : (A * B - 1) * (‖m‖ + (N1 + N2)) = (B - 1) * (A * (‖m‖ + N1)) + (A - 1) * (‖m‖ + N1) + (A * B - 1) * N2 := by ring
  rw [e]
  linarith

theorem range_sum {V : Type} [AddCommMonoid V] (g : Nat → V) {a b : Nat} (hb : b ≤ n) :
    ((List.range' a (b - a)).map g).sum = ∑ i : Fin n, if a ≤ i.val ∧ i.val < b then g i.val else 0 := by
  rw [Fin.sum_univ_eq_sum_range (fun i => if a ≤ i ∧ i < b then g i else 0) n, ← Finset.sum_filter]
  have : (Finset.range n).filter (fun i => a ≤ i ∧ i < b) = Finset.Ico a b := by
    ext i
    simp only [Finset.mem_filter, Finset.mem_range, Finset.mem_Ico]
    omega
  rw [this]
  rfl

theorem pairs_sum {V : Type} [AddCommMonoid V] (g : Nat → V) (a c : Nat) :
    ((List.range' (2 * a) (2 * c)).map g).sum = ((List.range' a c).map fun i => g (2 * i) + g (2 * i + 1)).sum := by
  induction c generalizing a with
  | zero => rfl
  | succ c ih =>
    rw [show 2 * (c + 1) = 2 * c + 1 + 1 by ring, List.range'_succ, List.range'_succ, List.range'_succ, List.map_cons, List.map_cons, List.map_cons,
      List.sum_cons, List.sum_cons, List.sum_cons, show 2 * a + 1 + 1 = 2 * (a + 1) by ring, ih, add_assoc]

theorem filter_sum {V : Type} [AddCommMonoid V] (l : List Nat) (keep : Nat → Bool) (g : Nat → V) (h : ∀ p ∈ l, keep p = false → g p = 0) :
    ((l.filter keep).map g).sum = (l.map g).sum := by
  induction l with
  | nil => rfl
  | cons p l ih =>
    have ih := ih fun q hq => h q (List.mem_cons_of_mem _ hq)
    cases hk : keep p with
    | true => rw [List.filter_cons_of_pos hk, List.map_cons, List.map_cons, List.sum_cons, List.sum_cons, ih]
    | false => rw [List.filter_cons_of_neg (by simp [hk]), List.map_cons, List.sum_cons, ih, h p (List.mem_cons_self ..) hk, zero_add]

theorem Order.Sums.near {R : Rounding} {fma : Bool} {o : Order} {k : Nat} {l : List Nat} {a : Nat → ℂ} (h : o.Sums k l a) (b : Nat → ℂ) (m : ℂ) :
    ‖o.value R fma m a b - (k * m + (l.map fun p => a p * b p).sum)‖ ≤
      ((1 + R.unit) ^ (o.depth + 5) - 1) * (k * ‖m‖ + (l.map fun p => ‖a p‖ * ‖b p‖).sum) := by
  obtain ⟨keep, hp, hz⟩ := h.terms
  have e1 : (o.terms.map fun p => a p * b p).sum = (l.map fun p => a p * b p).sum := by
    rw [(hp.map _).sum_eq]
    exact filter_sum l keep _ fun p hp hk => by rw [hz p hp hk, zero_mul]
  have e2 : (o.terms.map fun p => ‖a p‖ * ‖b p‖).sum = (l.map fun p => ‖a p‖ * ‖b p‖).sum := by
    rw [(hp.map _).sum_eq]
    exact filter_sum l keep _ fun p hp hk => by rw [hz p hp hk, norm_zero, zero_mul]
  have := Order.near (R := R) (fma := fma) m a b o
  rwa [e1, e2, h.starts] at this

theorem parts_sum (x : Fin n → ℂ) {a b : Nat} (hb : b ≤ n) :
    ((List.range' (2 * a) (2 * (b - a))).map fun p => parts x p * parts x p).sum = dotOn a b x x ∧
      ((List.range' (2 * a) (2 * (b - a))).map fun p => ‖parts x p‖ * ‖parts x p‖).sum = normOn a b x x := by
  have p0 : ∀ i, parts x (2 * i) = ((ex x i).re : ℂ) := fun i => by
    unfold parts; rw [if_pos (by omega), show 2 * i / 2 = i by omega]
  have p1 : ∀ i, parts x (2 * i + 1) = ((ex x i).im : ℂ) := fun i => by
    unfold parts; rw [if_neg (by omega), show (2 * i + 1) / 2 = i by omega]
  constructor
  · rw [pairs_sum, range_sum (n := n) _ hb]
    unfold dotOn
    refine Finset.sum_congr rfl fun i _ => ?_
    split
    · rw [p0, p1, ex_lt x i.isLt]
      apply Complex.ext
      · simp
      · simp; ring
    · rfl
  · rw [pairs_sum, range_sum (n := n) _ hb]
    unfold normOn
    refine Finset.sum_congr rfl fun i _ => ?_
    split
    · rw [p0, p1, ex_lt x i.isLt, Complex.norm_real, Complex.norm_real, Real.norm_eq_abs, Real.norm_eq_abs, abs_mul_abs_self, abs_mul_abs_self,
        ← sq ‖_‖, Complex.sq_norm, Complex.normSq_apply]
    · rfl

theorem dot_sum (x y : Fin n → ℂ) {a b : Nat} (hb : b ≤ n) :
    ((List.range' a (b - a)).map fun i => star (ex y i) * ex x i).sum = dotOn a b y x ∧
      ((List.range' a (b - a)).map fun i => ‖star (ex y i)‖ * ‖ex x i‖).sum = normOn a b y x := by
  constructor
  · rw [range_sum (n := n) _ hb]
    unfold dotOn
    refine Finset.sum_congr rfl fun i _ => ?_
    split
    · rw [ex_lt x i.isLt, ex_lt y i.isLt]
    · rfl
  · rw [range_sum (n := n) _ hb]
    unfold normOn
    refine Finset.sum_congr rfl fun i _ => ?_
    split
    · rw [ex_lt x i.isLt, ex_lt y i.isLt, norm_star]
    · rfl

end dots

/-! ## What the kernels for diagonal moments do -/

section follows

variable {n : Nat} {ord : Orders n} {F : Nat → Nat} {d : Nat} {fma : Bool} {A : RowRule n ℂ}

/-- The kernels follow the rule, and their sums have small errors. -/
structure DiagFollows (A : RowRule n ℂ) (u : ℝ) (F : Nat → Nat) (d : Nat) (M : Mat n ℂ) : Prop where
  diag : ∀ start stop x y m2 m3, start ≤ stop → stop ≤ n → ∃ o, M.diag start stop x y m2 m3 = .ok o ∧ A.Moved start stop x y o.y ∧
    Summed u (F stop - F start + d) start stop x x m2 o.m2 ∧ Summed u (F stop - F start + d) start stop o.y x m3 o.m3
  r1 : ∀ r0, ∃ w, M.r1 r0 = .ok w ∧ A.first r0 w

theorem diagKernel_follows (R : Rounding) (hord : ord.Valid F d) {spmv : Nat → Nat → (Fin n → ℂ) → (Fin n → ℂ) → Res (Fin n → ℂ)} {start stop : Nat}
    (hab : start ≤ stop) (hb : stop ≤ n) {x y y' : Fin n → ℂ} (h : spmv start stop x y = .ok y') (m2 m3 : ℂ) :
    ∃ o, diagKernel R fma ord spmv start stop x y m2 m3 = .ok o ∧ o.y = y' ∧
      Summed R.unit (F stop - F start + (d + 5)) start stop x x m2 o.m2 ∧ Summed R.unit (F stop - F start + (d + 5)) start stop o.y x m3 o.m3 := by
  unfold diagKernel
  rw [if_neg (by omega), h, Res.bind_ok]
  have hF := hord.mono hab
  refine ⟨_, rfl, rfl, ?_, ?_⟩
  · obtain ⟨s1, s2⟩ := hord.sq start stop x y' hab hb
    have := s1.near (R := R) (fma := fma) (parts x) m2
    rw [(parts_sum x hb).1, (parts_sum x hb).2, Nat.cast_one, Nat.cast_one, one_mul, one_mul] at this
    exact Summed.mono R.unit_nonneg (by omega) (k := (ord.sq start stop x y').depth + 5) this
  · obtain ⟨s1, s2⟩ := hord.dot start stop x y' hab hb
    have := s1.near (R := R) (fma := fma) (ex x) m3
    rw [(dot_sum x y' hb).1, (dot_sum x y' hb).2, Nat.cast_one, Nat.cast_one, one_mul, one_mul] at this
    exact Summed.mono R.unit_nonneg (by omega) (k := (ord.dot start stop x y').depth + 5) this

theorem diagSimd_eq (R : Rounding) (fma : Bool) {e : Ell ℂ} (h0 : 0 < e.nnzPerRow) (aligned : Nat → Bool) (step start stop : Nat) (x y : Fin n → ℂ) :
    diagSimd R fma e aligned step start stop x y = spmvSimd (R.ops fma) e aligned step start stop x y := by
  obtain ⟨c, hc⟩ : ∃ c, e.nnzPerRow = c + 1 := ⟨e.nnzPerRow - 1, by omega⟩
  unfold diagSimd spmvSimd
  rw [if_neg (by omega), hc, List.range_succ, List.foldlM_append, Nat.add_sub_cancel]
  simp only [List.foldlM_cons, List.foldlM_nil]
  congr 1
  funext z
  cases column (R.ops fma) e c step (splitLoop aligned step start stop) x z <;> rfl

/-- The diagonal kernels of every format follow every rule that the other kernels follow. -/
theorem Kernels.diagFollows (R : Rounding) (fma : Bool) (hord : ord.Valid F d) (f : Kernels n) {m : Raw ℂ} (h : m.WF) (hr : m.rows = n) (hc : m.cols = n)
    (hv : f.Valid m) {M : Mat n ℂ} (eM : f.mat (R.ops fma) m = .ok M) (hM : A.Follows M) :
    ∃ M, f.diagMat R fma ord m = .ok M ∧ DiagFollows A R.unit F (d + 5) M := by
  cases f with
  | csr junk =>
    obtain rfl : _ = M := Res.ok.inj eM
    refine ⟨_, rfl, fun a b x y m2 m3 hab hb => ?_, hM.r1⟩
    obtain ⟨y', e, hm⟩ := hM.spmv a b x y hab hb
    obtain ⟨o, eo, hy, h2, h3⟩ := diagKernel_follows (fma := fma) R hord hab hb e m2 m3
    exact ⟨o, eo, hy ▸ hm, h2, h3⟩
  | ell ds is d0 i0 =>
    unfold Kernels.mat at eM
    unfold Kernels.diagMat
    simp only at eM ⊢
    cases he : csrToEll ds is d0 i0 m with
    | ok e =>
      rw [he, Res.bind_ok] at eM
      obtain rfl : _ = M := Res.ok.inj eM
      rw [Res.bind_ok]
      refine ⟨_, rfl, fun a b x y m2 m3 hab hb => ?_, hM.r1⟩
      obtain ⟨y', e, hm⟩ := hM.spmv a b x y hab hb
      obtain ⟨o, eo, hy, h2, h3⟩ := diagKernel_follows (fma := fma) R hord hab hb e m2 m3
      exact ⟨o, eo, hy ▸ hm, h2, h3⟩
    | err e => rw [he] at eM; cases eM
    | ub => rw [he] at eM; cases eM
  | simd ds is d0 i0 aligned step =>
    obtain ⟨v1, v2, v3, i, hi, hrow⟩ := hv
    obtain ⟨e, h1, _, _, h4, _⟩ := csrToEll_full h hr hc (by omega) ds is v1 v2 d0 i0
    have hpos : 0 < e.nnzPerRow := lt_of_lt_of_le (List.length_pos_iff.2 hrow) (h4 i hi)
    unfold Kernels.mat at eM
    unfold Kernels.diagMat
    simp only at eM ⊢
    rw [h1, Res.bind_ok] at eM ⊢
    obtain rfl : _ = M := Res.ok.inj eM
    refine ⟨_, rfl, fun a b x y m2 m3 hab hb => ?_, hM.r1⟩
    obtain ⟨y', e', hm⟩ := hM.spmv a b x y hab hb
    obtain ⟨o, eo, hy, h2, h3⟩ := diagKernel_follows (fma := fma) R hord hab hb
      (spmv := fun start stop x y => diagSimd R fma e (aligned start stop x y) step start stop x y) ((diagSimd_eq R fma hpos ..).trans e') m2 m3
    exact ⟨o, eo, hy ▸ hm, h2, h3⟩

end follows

end Verif.Kpm.Float
