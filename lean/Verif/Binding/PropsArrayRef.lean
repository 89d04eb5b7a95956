import Verif.Binding.ArrayRef
import Mathlib.Algebra.Order.Group.Int
import Mathlib.Tactic.Ring
import Mathlib.Tactic.Linarith

/-!
# C73: references to arrays
-/

namespace Verif.Binding

/-! ## Types -/

/-- **C73** (types).  Every scalar type which can be used has a tag of its own, and Python sees an array of that type. -/
theorem C73_types (t : Scalar) (tag : Tag) : getTag t = some tag ↔ dtypeOf tag = t := by
  constructor
  · intro h
    unfold getTag at h
    split at h <;> first | (cases h; rfl) | cases h
  · rintro rfl
    cases tag <;> rfl

/-! ## Dispatch -/

theorem tryMatch_of_mem {α : Type} {types : List Scalar} {tag : Tag} (h : dtypeOf tag ∈ types) (f : Scalar → Res α) :
    tryMatch tag f types = f (dtypeOf tag) := by
  induction types with
  | nil => cases h
  | cons t ts ih =>
    unfold tryMatch
    by_cases ht : getTag t = some tag
    · rw [if_pos ht.symm, (C73_types t tag).1 ht]
    · rw [if_neg (fun e => ht e.symm)]
      rcases List.mem_cons.1 h with e | h
      · exact absurd ((C73_types t tag).2 e) ht
      · exact ih h

theorem tryMatch_of_not_mem {α : Type} {types : List Scalar} {tag : Tag} (h : dtypeOf tag ∉ types) (f : Scalar → Res α) :
    tryMatch tag f types = .err .runtimeError := by
  induction types with
  | nil => rfl
  | cons t ts ih =>
    unfold tryMatch
    rw [List.mem_cons, not_or] at h
    rw [if_neg, ih h.2]
    intro e
    exact h.1 ((C73_types t tag).1 e.symm)

theorem checkVariant_eq (types : List Scalar) (r : ArrayRef) :
    checkVariant types r = if dtypeOf r.tag ∈ types then .ok r else .err .runtimeError := by
  unfold checkVariant
  by_cases h : dtypeOf r.tag ∈ types
  · rw [if_pos h, if_neg]
    intro e
    rw [List.all_eq_true] at e
    have := e (getTag (dtypeOf r.tag)) (List.mem_map_of_mem h)
    rw [(C73_types _ _).2 rfl] at this
    simp at this
  · rw [if_neg h, if_pos]
    rw [List.all_eq_true]
    intro x hx
    obtain ⟨t, ht, rfl⟩ := List.mem_map.1 hx
    simp only [Bool.not_eq_true', decide_eq_false_iff_not]
    intro e
    exact h ((C73_types t r.tag).1 e ▸ ht)

/-- **C73** (one array).  For any list of types: a reference to an array of another type is rejected with an exception, and otherwise the
function is called with the type of the array. -/
theorem C73_match {α : Type} (types : List Scalar) (r : ArrayRef) (f : Scalar → Res α) :
    (dtypeOf r.tag ∈ types → checkVariant types r = .ok r ∧ matchOne types r f = f (dtypeOf r.tag)) ∧
    (dtypeOf r.tag ∉ types → checkVariant types r = .err .runtimeError ∧ matchOne types r f = .err .runtimeError) := by
  constructor <;> intro h
  · exact ⟨by rw [checkVariant_eq, if_pos h], tryMatch_of_mem h f⟩
  · exact ⟨by rw [checkVariant_eq, if_neg h], tryMatch_of_not_mem h f⟩

theorem mem_combinations {ts us : List Scalar} {p : Scalar × Scalar} : p ∈ combinations ts us ↔ p.1 ∈ ts ∧ p.2 ∈ us := by
  induction ts with
  | nil => simp [combinations]
  | cons t ts ih =>
    cases ts with
    | nil =>
      simp only [combinations, List.mem_map, List.mem_singleton]
      constructor
      · rintro ⟨u, hu, rfl⟩; exact ⟨rfl, hu⟩
      · rintro ⟨h1, h2⟩; exact ⟨p.2, h2, by rw [← h1]⟩
    | cons t' ts =>
      rw [combinations, List.mem_append, ih, List.mem_map]
      constructor
      · rintro (⟨u, hu, rfl⟩ | h)
        · exact ⟨List.mem_cons_self, hu⟩
        · exact ⟨List.mem_cons_of_mem _ h.1, h.2⟩
      · rintro ⟨h0, h2⟩
        rcases List.mem_cons.1 h0 with h1 | h1
        · exact Or.inl ⟨p.2, h2, by rw [← h1]⟩
        · exact Or.inr ⟨h1, h2⟩
      · intro h; cases h

theorem mem_filterPairs {p : Scalar × Scalar → Bool} {l : List (Scalar × Scalar)} {x : Scalar × Scalar} :
    x ∈ filterPairs p l ↔ x ∈ l ∧ p x = true := by
  induction l with
  | nil => simp [filterPairs]
  | cons t ts ih =>
    rw [filterPairs, List.mem_append, ih, List.mem_cons]
    constructor
    · rintro (h | h)
      · split at h
        · rw [List.mem_singleton.1 h]; exact ⟨Or.inl rfl, by assumption⟩
        · cases h
      · exact ⟨Or.inr h.1, h.2⟩
    · rintro ⟨rfl | h, h2⟩
      · rw [if_pos h2]; exact Or.inl (List.mem_singleton.2 rfl)
      · exact Or.inr ⟨h, h2⟩

theorem tryMatch2_of_mem {α : Type} {l : List (Scalar × Scalar)} {tag1 tag2 : Tag} (h : (dtypeOf tag1, dtypeOf tag2) ∈ l)
    (f : Scalar → Scalar → Res α) : tryMatch2 tag1 tag2 f l = f (dtypeOf tag1) (dtypeOf tag2) := by
  induction l with
  | nil => cases h
  | cons t ts ih =>
    unfold tryMatch2
    by_cases ht : some tag1 = getTag t.1 ∧ some tag2 = getTag t.2
    · rw [if_pos ht, (C73_types t.1 tag1).1 ht.1.symm, (C73_types t.2 tag2).1 ht.2.symm]
    · rw [if_neg ht]
      rcases List.mem_cons.1 h with e | h
      · refine absurd ⟨?_, ?_⟩ ht
        · exact ((C73_types t.1 tag1).2 (by rw [← e])).symm
        · exact ((C73_types t.2 tag2).2 (by rw [← e])).symm
      · exact ih h

theorem tryMatch2_of_not_mem {α : Type} {l : List (Scalar × Scalar)} {tag1 tag2 : Tag} (h : (dtypeOf tag1, dtypeOf tag2) ∉ l)
    (f : Scalar → Scalar → Res α) : tryMatch2 tag1 tag2 f l = .err .runtimeError := by
  induction l with
  | nil => rfl
  | cons t ts ih =>
    unfold tryMatch2
    rw [List.mem_cons, not_or] at h
    rw [if_neg, ih h.2]
    rintro ⟨e1, e2⟩
    exact h.1 (by rw [(C73_types t.1 tag1).1 e1.symm, (C73_types t.2 tag2).1 e2.symm])

/-- **C73** (two arrays).  For any two lists of types and references that were accepted: the function is called with the types of the
arrays.  If it wants the same precision, this is so exactly if the real types agree, otherwise an exception is thrown. -/
theorem C73_match_two {α : Type} {types1 types2 : List Scalar} {r1 r2 : ArrayRef} (h1 : checkVariant types1 r1 = .ok r1)
    (h2 : checkVariant types2 r2 = .ok r2) (f : Scalar → Scalar → Res α) :
    matchTwo types1 types2 r1 r2 f = f (dtypeOf r1.tag) (dtypeOf r2.tag) ∧
    matchTwoSp types1 types2 r1 r2 f =
      if (dtypeOf r1.tag).real = (dtypeOf r2.tag).real then f (dtypeOf r1.tag) (dtypeOf r2.tag) else .err .runtimeError := by
  have m1 : dtypeOf r1.tag ∈ types1 := by
    by_contra h
    rw [checkVariant_eq, if_neg h] at h1
    cases h1
  have m2 : dtypeOf r2.tag ∈ types2 := by
    by_contra h
    rw [checkVariant_eq, if_neg h] at h2
    cases h2
  have m : (dtypeOf r1.tag, dtypeOf r2.tag) ∈ combinations types1 types2 := mem_combinations.2 ⟨m1, m2⟩
  refine ⟨tryMatch2_of_mem m f, ?_⟩
  unfold matchTwoSp
  by_cases hp : (dtypeOf r1.tag).real = (dtypeOf r2.tag).real
  · rw [if_pos hp]
    exact tryMatch2_of_mem (mem_filterPairs.2 ⟨m, by simpa [isSamePrecision] using hp⟩) f
  · rw [if_neg hp]
    refine tryMatch2_of_not_mem (fun h => hp ?_) f
    simpa [isSamePrecision] using (mem_filterPairs.1 h).2

/-- The results of a solver for any scalar type of a Hamiltonian: eigenvalues of the real type, eigenvectors of the type itself. -/
example {α : Type} (t : Scalar) (ht : t ∈ complexTypes) (tag1 tag2 : Tag) (h1 : getTag t.real = some tag1) (h2 : getTag t = some tag2)
    (n m : Nat) (f : Scalar → Scalar → Res α) :
    matchTwoSp realTypes complexTypes (arrayref1 tag1 0 n) (arrayref2 tag2 0 m n) f = f t.real t := by
  have e1 := (C73_types _ _).1 h1
  have e2 := (C73_types _ _).1 h2
  have k1 : checkVariant realTypes (arrayref1 tag1 0 n) = .ok (arrayref1 tag1 0 n) := by
    rw [checkVariant_eq, if_pos]
    show dtypeOf tag1 ∈ realTypes
    rw [e1]
    exact (by decide : ∀ t ∈ complexTypes, t.real ∈ realTypes) t ht
  have k2 : checkVariant complexTypes (arrayref2 tag2 0 m n) = .ok (arrayref2 tag2 0 m n) := by
    rw [checkVariant_eq, if_pos]
    show dtypeOf tag2 ∈ complexTypes
    rw [e2]; exact ht
  rw [(C73_match_two k1 k2 f).2]
  show (if (dtypeOf tag1).real = (dtypeOf tag2).real then f (dtypeOf tag1) (dtypeOf tag2) else _) = _
  rw [e1, e2, if_pos]
  cases t <;> rfl

/-- Different precisions are refused. -/
example : matchTwoSp realTypes complexTypes (arrayref1 .f32 0 2) (arrayref2 .cf64 0 2 2) (fun _ _ => .ok ()) = .err .runtimeError := by
  decide

/-! ## Elements -/

/-- An Eigen object whose elements follow one another in memory; those which are vectors at compile time have one row or one column. -/
structure Packed (d : Dense) : Prop where
  inner : d.inner = 1
  outer : d.vector = false → d.outer = if d.rowMajor then d.cols else d.rows
  vector : d.vector = true → (d.rowMajor = false ∧ d.cols = 1) ∨ (d.rowMajor = true ∧ d.rows = 1)

/-- The place in memory of an element of a numpy array. -/
def place {K : Type} (a : Nd K) (idx : List Nat) : Int := a.offset + dot idx a.strides

/-- **C73** (Python).  Python sees an array with the type, the sizes and the elements of the Eigen object, on the same memory: vectors
have one index, matrices two, whatever the storage order is. -/
theorem C73_numpy {K : Type} (tag : Tag) {d : Dense} (hd : Packed d) :
    let a : Nd K := toNumpy (arrayrefDense tag d)
    a.tag = tag ∧ a.mem = .buffer ∧
    (d.vector = false → a.shape = [d.rows, d.cols] ∧ ∀ i < d.rows, ∀ j < d.cols, place a [i, j] = d.pos i j) ∧
    (d.vector = true → a.shape = [d.rows * d.cols] ∧
      ∀ i < d.rows, ∀ j < d.cols, place a [i * d.cols + j] = d.pos i j) := by
  obtain ⟨o, v, rm, rows, cols, inner, outer⟩ := d
  obtain ⟨h1, h2, h3⟩ := hd
  simp only at h1 h2 h3
  subst h1
  refine ⟨rfl, rfl, ?_, ?_⟩
  · rintro hv
    simp only at hv
    subst hv
    have h2 := h2 rfl
    refine ⟨rfl, ?_⟩
    intro i _ j _
    cases rm <;> simp [toNumpy, arrayrefDense, place, dot, cStrides, fStrides, Dense.pos, h2] <;> ring
  · rintro hv
    simp only at hv
    subst hv
    refine ⟨rfl, ?_⟩
    intro i hi j hj
    rcases h3 rfl with ⟨rfl, rfl⟩ | ⟨rfl, rfl⟩
    · have : j = 0 := by simpa using hj
      subst this
      simp [toNumpy, arrayrefDense, place, dot, fStrides, Dense.pos]
    · have : i = 0 := by simpa using hi
      subst this
      simp [toNumpy, arrayrefDense, place, dot, cStrides, Dense.pos]

/-- **C73** (containers).  Reading a reference as a vector gives the elements in the order of the memory; reading it as a matrix gives
the same matrix, provided that it is read in the storage order of the original. -/
theorem C73_container (tag : Tag) {d : Dense} (hd : Packed d) :
    (d.vector = true → (makeVector (arrayrefDense tag d)).rows = d.rows * d.cols ∧
      ∀ i < d.rows, ∀ j < d.cols, (makeVector (arrayrefDense tag d)).pos (i * d.cols + j) 0 = d.pos i j) ∧
    (d.vector = false → ∃ c, makeMatrix d.rowMajor (arrayrefDense tag d) = some c ∧ c.rows = d.rows ∧ c.cols = d.cols ∧
      ∀ i j, c.pos i j = d.pos i j) := by
  obtain ⟨o, v, rm, rows, cols, inner, outer⟩ := d
  obtain ⟨h1, h2, h3⟩ := hd
  simp only at h1 h2 h3
  subst h1
  constructor
  · rintro hv
    simp only at hv
    subst hv
    refine ⟨by simp [makeVector, arrayrefDense, ArrayRef.size], ?_⟩
    intro i hi j hj
    rcases h3 rfl with ⟨rfl, rfl⟩ | ⟨rfl, rfl⟩
    · have : j = 0 := by simpa using hj
      subst this
      simp [makeVector, arrayrefDense, Dense.pos]
    · have : i = 0 := by simpa using hi
      subst this
      simp [makeVector, arrayrefDense, Dense.pos]
  · rintro hv
    simp only at hv
    subst hv
    have h2 := h2 rfl
    refine ⟨_, rfl, rfl, rfl, ?_⟩
    intro i j
    cases rm <;> simp [Dense.pos, h2, arrayrefDense]

/-- The hypotheses are met, for instance, by column-major matrices (eigenvectors) and by arrays of positions. -/
example : Packed ⟨0, false, false, 4, 3, 1, 4⟩ ∧ Packed ⟨5, true, false, 7, 1, 1, 7⟩ :=
  ⟨⟨rfl, fun _ => rfl, fun h => absurd h (by decide)⟩, ⟨rfl, fun h => absurd h (by decide), fun _ => Or.inl ⟨rfl, rfl⟩⟩⟩

/-- **C73** (two sizes).  Element `[i, j]` is at `i * y + j`. -/
theorem C73_two {K : Type} (tag : Tag) (o x y : Nat) :
    let a : Nd K := toNumpy (arrayref2 tag o x y)
    a.tag = tag ∧ a.shape = [x, y] ∧ (arrayref2 tag o x y).size = x * y ∧ ∀ i j, place a [i, j] = o + i * y + j := by
  refine ⟨rfl, rfl, by simp [ArrayRef.size, arrayref2], ?_⟩
  intro i j
  simp [toNumpy, arrayref2, place, dot, cStrides]
  ring

/-- **C73** (three sizes).  The energies given to modifiers: element `[i, j, s]` is at `(i * y + j) * z + s`. -/
theorem C73_three {K : Type} (tag : Tag) (o x y z : Nat) :
    let a : Nd K := toNumpy (arrayref3 tag o x y z)
    a.tag = tag ∧ a.shape = [x, y, z] ∧ (arrayref3 tag o x y z).size = x * y * z ∧
      ∀ i j s, place a [i, j, s] = o + (i * y + j) * z + s := by
  refine ⟨rfl, rfl, by simp [ArrayRef.size, arrayref3, Nat.mul_assoc], ?_⟩
  intro i j s
  simp [toNumpy, arrayref3, place, dot, cStrides]
  ring

/-! ## Where the claim fails -/

/-- **C73**: the storage order is stored in a reference but not used when it is read as a matrix.  A row-major 2x3 matrix, read with
column-major containers as the solver's densities of states do, has other elements. -/
theorem C73_order_witness : ∃ d c, Packed d ∧ d.rowMajor = true ∧ makeMatrix false (arrayrefDense .f64 d) = some c ∧
    c.pos 0 1 ≠ d.pos 0 1 :=
  ⟨⟨0, false, true, 2, 3, 1, 3⟩, ⟨0, false, false, 2, 3, 1, 2⟩, ⟨rfl, fun _ => rfl, fun h => absurd h (by decide)⟩, rfl, rfl, by decide⟩

/-- **C73**: the reference to a `std::vector` that may be written has three sizes, (1, 1, n), that to one that may not has one. -/
theorem C73_vector_witness (n : Nat) : (toNumpy (arrayrefMutableVector .f64 n) : Nd Int).shape = [1, 1, n] ∧
    (toNumpy (arrayrefVector .f64 n) : Nd Int).shape = [n] := ⟨rfl, rfl⟩

/-- **C73**: strides are left out, so that references to blocks (here: the first column of a row-major 2x2 matrix) show other elements. -/
theorem C73_stride_witness : ∃ d : Dense, d.vector = true ∧ place (toNumpy (arrayrefDense .f64 d) : Nd Int) [1] ≠ d.pos 1 0 :=
  ⟨⟨0, true, false, 2, 1, 2, 2⟩, rfl, by decide⟩

end Verif.Binding
