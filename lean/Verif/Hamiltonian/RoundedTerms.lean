import Verif.Hamiltonian.RoundedNumbers

/-!
# How far the values of the Hamiltonian are from their exact values
-/

namespace Verif.Hamiltonian

open Verif.Sublat (Table It iters itersFrom tableNorbs)
open Verif.Sublat.Spec (firstRow)
open Verif.Hopping (COO HoppingBlocks Csr csrInsert overwrite)
open Verif.Lattice (Registry)

variable {C K L P : Type}

/-- Numbers of the type `K` stand for the complex numbers `val`, and additions have a relative error of at most `u`. -/
structure Approx (K : Type) [Zero K] [Add K] [Mul K] [Star K] (val : K → ℂ) (u : ℝ) : Prop where
  nonneg : 0 ≤ u
  zero : val 0 = 0
  star : ∀ x, val (star x) = starRingEnd ℂ (val x)
  add : ∀ x y, ‖val (x + y) - (val x + val y)‖ ≤ u * ‖val x + val y‖
  zero_mul : ∀ x : K, 0 * x = 0

theorem Approx.norm_star [Zero K] [Add K] [Mul K] [Star K] {val : K → ℂ} {u : ℝ} (A : Approx K val u) (x : K) : ‖val (Star.star x)‖ = ‖val x‖ := by
  rw [A.star, Complex.norm_conj]

theorem accum_some [Add K] (w : K) (vs : List K) : accum (some w) vs = some (vs.foldl (· + ·) w) := by
  induction vs generalizing w with
  | nil => rfl
  | cons v vs ih =>
    have := ih (w + v)
    unfold accum at this ⊢
    rw [List.foldl_cons, List.foldl_cons]
    exact this

theorem fold_error [Zero K] [Add K] [Mul K] [Star K] {val : K → ℂ} {u : ℝ} (A : Approx K val u) (w : K) (vs : List K) :
    ‖val (vs.foldl (· + ·) w) - (val w + (vs.map val).sum)‖ ≤ ((1 + u) ^ vs.length - 1) * (‖val w‖ + (vs.map fun v => ‖val v‖).sum) := by
  induction vs generalizing w with
  | nil => simp
  | cons v vs ih =>
    have hu := A.nonneg
    have h1 := ih (w + v)
    have h2 := A.add w v
    have h3 := norm_add_le (val w) (val v)
    have hS : 0 ≤ (vs.map fun v => ‖val v‖).sum := Kpm.Float.list_norms_nonneg vs _ fun _ => norm_nonneg _
    rw [List.foldl_cons, List.map_cons, List.map_cons, List.sum_cons, List.sum_cons, List.length_cons]
    have hg : (1 : ℝ) ≤ (1 + u) ^ vs.length := one_le_pow₀ (by linarith)
    have h4 : ‖val (w + v)‖ ≤ (1 + u) * (‖val w‖ + ‖val v‖) := by
      have := norm_add_le (val (w + v) - (val w + val v)) (val w + val v)
      rw [sub_add_cancel] at this
      nlinarith
    have h5 : ‖val (vs.foldl (· + ·) (w + v)) - (val w + (val v + (vs.map val).sum))‖ ≤
        ‖val (vs.foldl (· + ·) (w + v)) - (val (w + v) + (vs.map val).sum)‖ + ‖val (w + v) - (val w + val v)‖ := by
      refine le_trans (le_of_eq ?_) (norm_add_le _ _)
      congr 1
      ring
    have h6 : ((1 + u) ^ vs.length - 1) * (‖val (w + v)‖ + (vs.map fun v => ‖val v‖).sum) ≤
        ((1 + u) ^ vs.length - 1) * ((1 + u) * (‖val w‖ + ‖val v‖) + (vs.map fun v => ‖val v‖).sum) :=
      mul_le_mul_of_nonneg_left (by linarith) (by linarith)
    have h7 : u * ‖val w + val v‖ ≤ u * (‖val w‖ + ‖val v‖) := mul_le_mul_of_nonneg_left h3 hu
    have h8 : (0 : ℝ) ≤ u * (1 + u) ^ vs.length * (vs.map fun v => ‖val v‖).sum := by positivity
    rw [pow_succ]
    nlinarith

/-- The sum of the values at one place has an error for each addition. -/
theorem accum_error [Zero K] [Add K] [Mul K] [Star K] {val : K → ℂ} {u : ℝ} (A : Approx K val u) (vs : List K) :
    ‖val ((accum none vs).getD 0) - (vs.map val).sum‖ ≤ ((1 + u) ^ (vs.length - 1) - 1) * (vs.map fun v => ‖val v‖).sum := by
  cases vs with
  | nil => simp [accum, A.zero]
  | cons v vs =>
    have e : accum none (v :: vs) = some (vs.foldl (· + ·) v) := by
      rw [← accum_some]; rfl
    rw [e, Option.getD_some, List.map_cons, List.map_cons, List.sum_cons, List.sum_cons, List.length_cons, Nat.add_sub_cancel]
    exact fold_error A v vs

/-! ## Sums over the values at one place -/

/-- The calls with other values. -/
def mapCalls (φ : K → L) (calls : List (Call K)) : List (Call L) := calls.map fun c => (c.1, c.2.1, φ c.2.2)

theorem mapCalls_append (φ : K → L) (a b : List (Call K)) : mapCalls φ (a ++ b) = mapCalls φ a ++ mapCalls φ b := List.map_append

theorem mapCalls_flatMap {α : Type} (φ : K → L) (l : List α) (f : α → List (Call K)) : mapCalls φ (l.flatMap f) = l.flatMap fun a => mapCalls φ (f a) :=
  List.map_flatMap

theorem vals_sum [AddMonoid L] (φ : K → L) (calls : List (Call K)) (a b : Int) : ((vals calls a b).map φ).sum = callSum (mapCalls φ calls) a b := by
  induction calls with
  | nil => rfl
  | cons c rest ih =>
    rw [vals_cons, List.map_append, List.sum_append, ih]
    show _ = callSum ((c.1, c.2.1, φ c.2.2) :: mapCalls φ rest) a b
    rw [callSum_cons]
    congr 1
    simp only
    split <;> simp

theorem mapCalls_conjugate [Star K] [Star L] (φ : K → L) (hφ : ∀ x, φ (star x) = star (φ x)) (calls : List (Call K)) :
    mapCalls φ (withConjugate calls) = withConjugate (mapCalls φ calls) := by
  unfold withConjugate
  rw [mapCalls_flatMap]
  unfold mapCalls
  rw [List.flatMap_map]
  congr 1
  funext c
  simp only [List.map_cons, List.map_nil, hφ]

theorem callSum_map_nonzero [Zero K] [AddMonoid L] [DecidableEq K] (φ : K → L) (h0 : φ 0 = 0) (cs : List (Call K)) (i j : Int) :
    callSum (mapCalls φ (cs.filter fun c => c.2.2 ≠ 0)) i j = callSum (mapCalls φ cs) i j := by
  induction cs with
  | nil => rfl
  | cons c cs ih =>
    rw [List.filter_cons]
    show _ = callSum ((c.1, c.2.1, φ c.2.2) :: mapCalls φ cs) i j
    split
    · show callSum ((c.1, c.2.1, φ c.2.2) :: mapCalls φ _) i j = _
      rw [callSum_cons, callSum_cons, ih]
    · rename_i hc
      have hc0 : c.2.2 = 0 := by simpa using hc
      rw [callSum_cons, ih, hc0, h0]
      simp

theorem callSum_map_place [Zero K] [DecidableEq K] [AddCommMonoid L] (φ : K → L) (h0 : φ 0 = 0) (norbs : List Nat) (c : COO) (e : Nat → Nat → K)
    (a b i j : Nat) (hi : i < norbs.getD a 0) (hj : j < norbs.getD b 0) :
    callSum (mapCalls φ (elemCalls (place norbs c) (norbs.getD c.row 0) (norbs.getD c.col 0) e))
      ((firstRow norbs a + i : Nat) : Int) ((firstRow norbs b + j : Nat) : Int) = if c = ⟨a, b⟩ then φ (e i j) else 0 := by
  classical
  rw [← callSum_place norbs c (fun i j => φ (e i j)) a b i j hi hj, callSum_elemCalls]
  unfold elemCalls
  rw [mapCalls_flatMap, callSum_flatMap]
  congr 1
  apply List.map_congr_left
  intro i' _
  rw [mapCalls_flatMap, callSum_flatMap]
  congr 1
  apply List.map_congr_left
  intro j' _
  by_cases hz : e i' j' = 0
  · simp [hz, h0, mapCalls]
  · rw [if_neg hz]
    show callSum [((place norbs c i' j').1, (place norbs c i' j').2, φ (e i' j'))] _ _ = _
    rw [callSum_cons]
    simp [Prod.ext_iff]

theorem callSum_map_perm [AddCommMonoid L] (φ : K → L) {a b : List (Call K)} (h : a.Perm b) (i j : Int) :
    callSum (mapCalls φ a) i j = callSum (mapCalls φ b) i j := callSum_perm (h.map _) i j

/-! ## The terms of an element -/

/-- Specification: the sum over the hoppings stored from site `a` to site `b` of a quantity that depends on the family. -/
def bondSum [AddCommMonoid L] (t : Nat → L) (blocks : List (List COO)) (a b : Nat) : L := (blocks.zipIdx.map fun p => p.1.count ⟨a, b⟩ • t p.2).sum

/-- Specification: the number of hoppings stored from site `a` to site `b`. -/
def bonds (blocks : List (List COO)) (a b : Nat) : Nat := bondSum (fun _ => 1) blocks a b

theorem callSum_map_hoppings [Zero C] [Zero K] [DecidableEq K] [AddCommMonoid L] [Sub P] (φ : K → L) (h0 : φ 0 = 0) (cast : C → K)
    (norbs : List Nat) (posAt : Nat → P) (shift : Option P) (gs : List (ElemFn K P)) (E : Nat → Mat C)
    (N : Nat → String) (blocks : List (List COO))
    (hf : ∀ (fam : Nat) b, blocks[fam]? = some b → ∀ c ∈ b, Fits norbs (E fam) c)
    (a b i j : Nat) (hi : i < norbs.getD a 0) (hj : j < norbs.getD b 0) :
    callSum (mapCalls φ (specHoppings cast norbs posAt shift gs E N blocks))
      ((firstRow norbs a + i : Nat) : Int) ((firstRow norbs b + j : Nat) : Int)
      = bondSum (fun fam => φ (finalEnergy gs (N fam) (fun i j => cast (entry (E fam) i j)) (posAt a) (shiftBy shift (posAt b)) i j)) blocks a b := by
  unfold specHoppings bondSum
  rw [mapCalls_flatMap, callSum_flatMap]
  congr 1
  apply List.map_congr_left
  rintro ⟨bl, fam⟩ hp
  have hbl : blocks[fam]? = some bl := by
    have := List.mem_zipIdx_iff_getElem?.1 hp
    simpa using this
  simp only
  rw [mapCalls_flatMap, callSum_flatMap, ← sum_ite_count]
  congr 1
  apply List.map_congr_left
  intro c hc
  obtain ⟨h1, h2⟩ := hf fam bl hbl c hc
  unfold hopCalls
  have e1 : (E fam).rows = norbs.getD c.row 0 := by rw [List.getD_eq_getElem?_getD, h1]; rfl
  have e2 : (E fam).cols = norbs.getD c.col 0 := by rw [List.getD_eq_getElem?_getD, h2]; rfl
  rw [e1, e2, callSum_map_place φ h0 norbs c _ a b i j hi hj]
  split
  · rename_i h; subst h; rfl
  · rfl

theorem bondSum_norm {blocks : List (List COO)} {a b : Nat} {t t' : Nat → ℂ} {s : Nat → ℝ} {ε : ℝ} (h : ∀ fam, ‖t fam - t' fam‖ ≤ ε * s fam) :
    ‖bondSum t blocks a b - bondSum t' blocks a b‖ ≤ ε * bondSum s blocks a b := by
  unfold bondSum
  induction blocks.zipIdx with
  | nil => simp
  | cons p l ih =>
    rw [List.map_cons, List.map_cons, List.map_cons, List.sum_cons, List.sum_cons, List.sum_cons, add_sub_add_comm, mul_add]
    refine (norm_add_le _ _).trans (add_le_add ?_ ih)
    rw [← nsmul_sub, nsmul_eq_mul, nsmul_eq_mul, norm_mul, Complex.norm_natCast, mul_left_comm]
    exact mul_le_mul_of_nonneg_left (h p.2) (Nat.cast_nonneg _)

theorem bondSum_mono {blocks : List (List COO)} {a b : Nat} {t s : Nat → ℝ} {c : ℝ} (h : ∀ fam, t fam ≤ c * s fam) :
    bondSum t blocks a b ≤ c * bondSum s blocks a b := by
  unfold bondSum
  induction blocks.zipIdx with
  | nil => simp
  | cons p l ih =>
    rw [List.map_cons, List.map_cons, List.sum_cons, List.sum_cons, mul_add]
    refine add_le_add ?_ ih
    rw [nsmul_eq_mul, nsmul_eq_mul, mul_left_comm]
    exact mul_le_mul_of_nonneg_left (h p.2) (Nat.cast_nonneg _)

theorem bondSum_nonneg {blocks : List (List COO)} {a b : Nat} {t : Nat → ℝ} (h : ∀ fam, 0 ≤ t fam) : 0 ≤ bondSum t blocks a b := by
  unfold bondSum
  apply List.sum_nonneg
  intro x hx
  obtain ⟨p, -, rfl⟩ := List.mem_map.1 hx
  rw [nsmul_eq_mul]
  exact mul_nonneg (Nat.cast_nonneg _) (h _)

theorem bonds_eq (blocks : List (List COO)) (a b : Nat) : bonds blocks a b = blocks.flatten.count ⟨a, b⟩ := by
  unfold bonds bondSum
  have : ∀ (l : List (List COO)) (k : Nat), ((l.zipIdx k).map fun p => p.1.count (⟨a, b⟩ : COO) • (1 : Nat)).sum = l.flatten.count ⟨a, b⟩ := by
    intro l
    induction l with
    | nil => intro k; rfl
    | cons x l ih =>
      intro k
      rw [List.zipIdx_cons, List.map_cons, List.sum_cons, ih, List.flatten_cons, List.count_append]
      simp
  exact this blocks 0

theorem bondSum_mul (t : Nat → ℂ) (blocks : List (List COO)) (a b : Nat) (z : ℂ) : bondSum t blocks a b * z = bondSum (fun fam => t fam * z) blocks a b := by
  unfold bondSum
  induction blocks.zipIdx with
  | nil => simp
  | cons p l ih => rw [List.map_cons, List.map_cons, List.sum_cons, List.sum_cons, add_mul, ih, smul_mul_assoc]

/-! ## Counting values -/

theorem length_vals_count (calls : List (Call K)) (a b : Int) : (vals calls a b).length = (calls.map pos).count (a, b) := by
  induction calls with
  | nil => rfl
  | cons c rest ih =>
    rw [vals_cons, List.length_append, ih, List.map_cons, List.count_cons]
    by_cases h : c.1 = a ∧ c.2.1 = b
    · have : (pos c == (a, b)) = true := by
        rw [beq_iff_eq]; exact Prod.ext h.1 h.2
      rw [if_pos h, if_pos this]
      simp only [List.length_cons, List.length_nil]
      omega
    · have : ¬ (pos c == (a, b)) = true := by
        rw [beq_iff_eq]
        exact fun e => h ⟨congrArg Prod.fst e, congrArg Prod.snd e⟩
      rw [if_neg h, if_neg this]
      simp

theorem count_box (norbs : List Nat) (c : COO) (a b i j : Nat) (hi : i < norbs.getD a 0) (hj : j < norbs.getD b 0) :
    (box norbs c).count (((firstRow norbs a + i : Nat) : Int), ((firstRow norbs b + j : Nat) : Int)) = if c = ⟨a, b⟩ then 1 else 0 := by
  have h := callSum_place (K := Nat) norbs c (fun _ _ => 1) a b i j hi hj
  have e : box norbs c = (elemCalls (place norbs c) (norbs.getD c.row 0) (norbs.getD c.col 0) fun _ _ => (1 : Nat)).map pos := by
    unfold box elemCalls
    rw [List.map_flatMap]
    congr 1
    funext i
    rw [List.map_flatMap, ← List.flatMap_pure_eq_map]
    rfl
  have h1 : ∀ (cs : List (Call Nat)), (∀ c ∈ cs, c.2.2 = 1) → ∀ x y, (cs.map pos).count (x, y) = callSum cs x y := by
    intro cs hcs x y
    rw [← length_vals_count]
    have := vals_sum (L := Nat) id cs x y
    rw [List.map_id] at this
    have e2 : mapCalls id cs = cs := by simp [mapCalls]
    rw [e2] at this
    rw [← this]
    have e3 : ∀ v ∈ vals cs x y, v = 1 := fun v hv => hcs _ (mem_vals.1 hv)
    rw [List.sum_eq_card_nsmul _ 1 e3]
    simp
  rw [e, h1 _ _ _ _, h]
  intro d hd
  unfold elemCalls at hd
  obtain ⟨x, -, hd⟩ := List.mem_flatMap.1 hd
  obtain ⟨y, -, hd⟩ := List.mem_flatMap.1 hd
  simp only [one_ne_zero, if_false, List.mem_singleton] at hd
  rw [hd]

theorem count_boxes (norbs : List Nat) (l : List COO) (a b i j : Nat) (hi : i < norbs.getD a 0) (hj : j < norbs.getD b 0) :
    (l.flatMap (box norbs)).count (((firstRow norbs a + i : Nat) : Int), ((firstRow norbs b + j : Nat) : Int)) = l.count ⟨a, b⟩ := by
  induction l with
  | nil => rfl
  | cons c l ih =>
    rw [List.flatMap_cons, List.count_append, ih, count_box norbs c a b i j hi hj, List.count_cons, Nat.add_comm]
    congr 1
    simp only [beq_iff_eq]

theorem length_conjugate [Star K] (calls : List (Call K)) (a b : Int) :
    (vals (withConjugate calls) a b).length = (vals calls a b).length + (vals calls b a).length := by
  induction calls with
  | nil => rfl
  | cons c rest ih =>
    have e : withConjugate (c :: rest) = c :: (c.2.1, c.1, star c.2.2) :: withConjugate rest := rfl
    rw [e, vals_cons, vals_cons, vals_cons c rest a b, vals_cons c rest b a]
    simp only [List.length_append, ih]
    have e2 : (if c.2.1 = a ∧ c.1 = b then [star c.2.2] else []).length = (if c.1 = b ∧ c.2.1 = a then [c.2.2] else []).length := by
      by_cases h : c.1 = b ∧ c.2.1 = a
      · rw [if_pos h, if_pos ⟨h.2, h.1⟩]; rfl
      · rw [if_neg h, if_neg fun x => h ⟨x.2, x.1⟩]
    rw [e2]
    omega

theorem length_vals_map (f : K → K) (calls : List (Call K)) (a b : Int) : (vals (calls.map fun c => (c.1, c.2.1, f c.2.2)) a b).length = (vals calls a b).length := by
  rw [length_vals_count, length_vals_count, List.map_map]
  rfl

/-! ## Building succeeds in every arithmetic -/

theorem addAll_builds [Add K] {n : Nat} (calls : List (Call K)) {m : Csr K} (hm : m.length = n)
    (h : ∀ c ∈ calls, 0 ≤ c.1 ∧ c.1 < n ∧ 0 ≤ c.2.1 ∧ c.2.1 < n) : ∃ m', addAll n calls m = .ok m' ∧ m'.length = n := by
  induction calls generalizing m with
  | nil => exact ⟨m, rfl, hm⟩
  | cons c rest ih =>
    obtain ⟨i, j, v⟩ := c
    obtain ⟨h1, h2, h3, h4⟩ := h _ List.mem_cons_self
    simp only at h1 h2 h3 h4
    have hi : i.toNat < m.length := by omega
    have e : addAt n m i j v = .ok (m.set i.toNat (rowAdd j.toNat v (m[i.toNat]'hi))) := by
      unfold addAt
      rw [if_neg (by omega), if_pos (by omega), List.getElem?_eq_getElem hi]
    obtain ⟨m', e1, e2⟩ := ih (m := m.set i.toNat (rowAdd j.toNat v (m[i.toNat]'hi))) (by rw [List.length_set, hm]) fun c hc => h c (List.mem_cons_of_mem _ hc)
    refine ⟨m', ?_, e2⟩
    simp only [addAll, e, Res.bind_ok]
    exact e1

/-! ## Terms -/

/-- Specification: the terms of the matrix elements. `onsite a i j`: the onsite energy of site `a`; `hop fam a b i j`: the energy of a hopping of the family from site `a`
to site `b`; `wrap d fam a b i j`: the same through the periodic boundary that shifts by `d`, with its phase. -/
structure Terms (P L : Type) where
  onsite : Nat → Nat → Nat → L
  hop : Nat → Nat → Nat → Nat → Nat → L
  wrap : P → Nat → Nat → Nat → Nat → Nat → L

/-- Specification: a function of each term. -/
def Terms.map (T : Terms P K) (φ : K → L) : Terms P L :=
  ⟨fun a i j => φ (T.onsite a i j), fun f a b i j => φ (T.hop f a b i j), fun d f a b i j => φ (T.wrap d f a b i j)⟩

/-- Specification: the sum of the terms of the element at orbital `i` of site `a` and orbital `j` of site `b`. -/
def Terms.element [AddCommMonoid L] [Star L] (T : Terms P L) (main : List (List COO)) (bds : List (Boundary P)) (a b i j : Nat) : L :=
  (if a = b then T.onsite a i j else 0)
    + (bondSum (fun f => T.hop f a b i j) main a b + star (bondSum (fun f => T.hop f b a j i) main b a))
    + (bds.map fun bd => bondSum (fun f => T.wrap bd.shift f a b i j) bd.hoppings.blocks a b
        + star (bondSum (fun f => T.wrap bd.shift f b a j i) bd.hoppings.blocks b a)).sum

/-- Specification: the number of hoppings between the sites `a` and `b`, of either direction, through all boundaries. -/
def bondsBetween (main : List (List COO)) (bds : List (Boundary P)) (a b : Nat) : Nat :=
  bonds main a b + bonds main b a + (bds.map fun bd => bonds bd.hoppings.blocks a b + bonds bd.hoppings.blocks b a).sum

/-- Specification: the terms that the modifiers `gos` (onsite) and `gs` (hopping) give, with the energies `S` of the sites and `E` of the families of hoppings. -/
def terms [Zero C] [Mul K] [Sub P] (cast : C → K) (phase : P → K) (gos : List (OnsiteFn K P)) (gs : List (ElemFn K P)) (S : Nat → Mat C) (SN : Nat → String)
    (E : Nat → Mat C) (N : Nat → String) (posAt : Nat → P) : Terms P K where
  onsite a i j := finalOnsite gos (SN a) (fun i j => cast (entry (S a) i j)) (posAt a) i j
  hop f a b i j := finalEnergy gs (N f) (fun i j => cast (entry (E f) i j)) (posAt a) (shiftBy none (posAt b)) i j
  wrap d f a b i j := finalEnergy gs (N f) (fun i j => cast (entry (E f) i j)) (posAt a) (shiftBy (some d) (posAt b)) i j * phase d

/-- The terms `T` stand for the terms `T'` with relative errors of at most `ε`. -/
structure Terms.Near (val : K → ℂ) (ε : ℝ) (T : Terms P K) (T' : Terms P ℂ) (bds : List (Boundary P)) : Prop where
  onsite : ∀ a i j, ‖val (T.onsite a i j) - T'.onsite a i j‖ ≤ ε * ‖T'.onsite a i j‖
  hop : ∀ f a b i j, ‖val (T.hop f a b i j) - T'.hop f a b i j‖ ≤ ε * ‖T'.hop f a b i j‖
  wrap : ∀ bd ∈ bds, ∀ f a b i j, ‖val (T.wrap bd.shift f a b i j) - T'.wrap bd.shift f a b i j‖ ≤ ε * ‖T'.wrap bd.shift f a b i j‖

theorem element_nonneg (T : Terms P ℝ) (h1 : ∀ a i j, 0 ≤ T.onsite a i j) (h2 : ∀ f a b i j, 0 ≤ T.hop f a b i j) (h3 : ∀ d f a b i j, 0 ≤ T.wrap d f a b i j)
    (main : List (List COO)) (bds : List (Boundary P)) (a b i j : Nat) : 0 ≤ T.element main bds a b i j := by
  unfold Terms.element
  simp only [star_trivial]
  refine add_nonneg (add_nonneg ?_ (add_nonneg (bondSum_nonneg fun _ => h2 ..) (bondSum_nonneg fun _ => h2 ..))) ?_
  · split
    · exact h1 ..
    · exact le_rfl
  · apply List.sum_nonneg
    intro x hx
    obtain ⟨bd, -, rfl⟩ := List.mem_map.1 hx
    exact add_nonneg (bondSum_nonneg fun _ => h3 ..) (bondSum_nonneg fun _ => h3 ..)

theorem element_near {val : K → ℂ} {ε : ℝ} {T : Terms P K} {T' : Terms P ℂ} {bds : List (Boundary P)} (h : T.Near val ε T' bds) (main : List (List COO)) (a b i j : Nat) :
    ‖(T.map val).element main bds a b i j - T'.element main bds a b i j‖ ≤ ε * (T'.map fun z => ‖z‖).element main bds a b i j := by
  have hB : ∀ l : List (Boundary P), (∀ bd ∈ l, bd ∈ bds) →
      ‖(l.map fun bd => bondSum (fun f => (T.map val).wrap bd.shift f a b i j) bd.hoppings.blocks a b
        + star (bondSum (fun f => (T.map val).wrap bd.shift f b a j i) bd.hoppings.blocks b a)).sum
        - (l.map fun bd => bondSum (fun f => T'.wrap bd.shift f a b i j) bd.hoppings.blocks a b
        + star (bondSum (fun f => T'.wrap bd.shift f b a j i) bd.hoppings.blocks b a)).sum‖ ≤
      ε * (l.map fun bd => bondSum (fun f => (T'.map fun z => ‖z‖).wrap bd.shift f a b i j) bd.hoppings.blocks a b
        + star (bondSum (fun f => (T'.map fun z => ‖z‖).wrap bd.shift f b a j i) bd.hoppings.blocks b a)).sum := by
    intro l
    induction l with
    | nil => intro _; simp
    | cons bd l ih =>
      intro hl
      rw [List.map_cons, List.map_cons, List.map_cons, List.sum_cons, List.sum_cons, List.sum_cons, add_sub_add_comm, mul_add]
      refine (norm_add_le _ _).trans (add_le_add ?_ (ih fun x hx => hl x (List.mem_cons_of_mem _ hx)))
      have hb := hl bd List.mem_cons_self
      rw [add_sub_add_comm, ← star_sub, mul_add]
      refine (norm_add_le _ _).trans (add_le_add (bondSum_norm fun f => h.wrap bd hb f a b i j) ?_)
      rw [norm_star, star_trivial]
      exact bondSum_norm fun f => h.wrap bd hb f b a j i
  unfold Terms.element
  rw [add_sub_add_comm, add_sub_add_comm, mul_add, mul_add]
  refine (norm_add_le _ _).trans (add_le_add ((norm_add_le _ _).trans (add_le_add ?_ ?_)) (hB bds fun _ h => h))
  · split
    · exact h.onsite a i j
    · simp
  · rw [add_sub_add_comm, ← star_sub, mul_add]
    refine (norm_add_le _ _).trans (add_le_add (bondSum_norm fun f => h.hop f a b i j) ?_)
    rw [norm_star, star_trivial]
    exact bondSum_norm fun f => h.hop f b a j i

theorem element_size {val : K → ℂ} {ε : ℝ} {T : Terms P K} {T' : Terms P ℂ} {bds : List (Boundary P)} (h : T.Near val ε T' bds) (main : List (List COO)) (a b i j : Nat) :
    (T.map fun x => ‖val x‖).element main bds a b i j ≤ (1 + ε) * (T'.map fun z => ‖z‖).element main bds a b i j := by
  have hn : ∀ x y : ℂ, ‖x - y‖ ≤ ε * ‖y‖ → ‖x‖ ≤ (1 + ε) * ‖y‖ := by
    intro x y hxy
    have := norm_add_le (x - y) y
    rw [sub_add_cancel] at this
    linarith
  unfold Terms.element
  simp only [star_trivial]
  rw [mul_add, mul_add, mul_add]
  refine add_le_add (add_le_add ?_ (add_le_add (bondSum_mono fun f => hn _ _ (h.hop f a b i j)) (bondSum_mono fun f => hn _ _ (h.hop f b a j i)))) ?_
  · split
    · exact hn _ _ (h.onsite a i j)
    · simp
  · rw [← List.sum_map_mul_left]
    apply List.sum_le_sum
    intro bd hbd
    rw [mul_add]
    exact add_le_add (bondSum_mono fun f => hn _ _ (h.wrap bd hbd f a b i j)) (bondSum_mono fun f => hn _ _ (h.wrap bd hbd f b a j i))

end Verif.Hamiltonian
