import Verif.Binding.Modifier
import Verif.Binding.PropsArrayRef
import Verif.Hamiltonian.Coeff
import Mathlib.Tactic.IntervalCases

/-!
# Lemmas on numpy arrays of energies
-/

namespace Verif.Binding

open Verif.Hamiltonian (layout length_layout getElem?_layout)

variable {K : Type}

/-- Specification: the array of shape `(r, c, n)` with the elements `E s i j` at `[i, j, s]`. -/
def energies (r c n : Nat) (E : Nat → Nat → Nat → K) : List K := layout r c ((List.range n).map E)

theorem length_energies (r c n : Nat) (E : Nat → Nat → Nat → K) : (energies r c n E).length = r * c * n := by
  unfold energies
  rw [length_layout, List.length_map, List.length_range, Nat.mul_comm]

theorem getElem?_energies {r c n i j s : Nat} (E : Nat → Nat → Nat → K) (hi : i < r) (hj : j < c) (hs : s < n) :
    (energies r c n E)[(i * c + j) * n + s]? = some (E s i j) := by
  have := getElem?_layout r c ((List.range n).map E) i j s hi hj (by simpa using hs)
  simpa [energies, hs] using this

theorem energies_congr {r c n : Nat} {E F : Nat → Nat → Nat → K} (h : ∀ s < n, ∀ i < r, ∀ j < c, E s i j = F s i j) :
    energies r c n E = energies r c n F := by
  apply Verif.Hamiltonian.layout_congr
  · simp
  · intro k e f he hf i j hi hj
    rw [List.getElem?_map] at he hf
    by_cases hk : k < n
    · rw [List.getElem?_range hk] at he hf
      cases he; cases hf
      exact h k hk i hi j hj
    · rw [List.getElem?_eq_none (by simpa using hk)] at he
      cases he

/-- Every index of such an array. -/
theorem exists_index {r c n k : Nat} (h : k < r * c * n) : ∃ i < r, ∃ j < c, ∃ s < n, k = (i * c + j) * n + s := by
  have hn : 0 < n := Nat.pos_of_ne_zero (by rintro rfl; simp at h)
  have hc : 0 < c := Nat.pos_of_ne_zero (by rintro rfl; simp at h)
  refine ⟨k / n / c, ?_, k / n % c, Nat.mod_lt _ hc, k % n, Nat.mod_lt _ hn, ?_⟩
  · rw [Nat.div_lt_iff_lt_mul hc, Nat.div_lt_iff_lt_mul hn]; exact h
  · rw [Nat.div_add_mod', Nat.div_add_mod']

theorem index_lt {r c n i j s : Nat} (hi : i < r) (hj : j < c) (hs : s < n) : (i * c + j) * n + s < r * c * n := by
  have h1 : i * c + j + 1 ≤ r * c := by nlinarith
  nlinarith

/-- A list whose elements at all indices are those of the array of energies is that array. -/
theorem eq_energies {r c n : Nat} {E : Nat → Nat → Nat → K} {l : List K} (hl : l.length = r * c * n)
    (h : ∀ i < r, ∀ j < c, ∀ s < n, l[(i * c + j) * n + s]? = some (E s i j)) : l = energies r c n E := by
  apply List.ext_getElem?
  intro k
  by_cases hk : k < r * c * n
  · obtain ⟨i, hi, j, hj, s, hs, rfl⟩ := exists_index hk
    rw [h i hi j hj s hs, getElem?_energies E hi hj hs]
  · rw [List.getElem?_eq_none (by omega), List.getElem?_eq_none (by rw [length_energies]; omega)]

/-! ## Results of the shape of the argument -/

/-- Index of an element in Python: `[s]` if there is one orbital, `[s, i, j]` otherwise. -/
def ix (rows cols s i j : Nat) : List Nat := if rows = 1 ∧ cols = 1 then [s] else [s, i, j]

/-- The result `r` has the shape of the argument, and its elements are `E s i j`. -/
structure Shows (rows cols n : Nat) (buf : List K) (r : Nd K) (E : Nat → Nat → Nat → K) : Prop where
  shape : r.shape = if rows = 1 ∧ cols = 1 then [n] else [n, rows, cols]
  strides : r.strides.length = r.shape.length
  elem : ∀ s < n, ∀ i < rows, ∀ j < cols, r.get buf (ix rows cols s i j) = some (E s i j)

theorem Shows.size {rows cols n : Nat} {buf : List K} {r : Nd K} {E : Nat → Nat → Nat → K} (h : Shows rows cols n buf r E) :
    r.size = rows * cols * n := by
  unfold Nd.size
  rw [h.shape]
  split
  · rename_i h; simp [h.1, h.2]
  · simp; ring

/-- Reading an array whose elements are stored in the order of the argument's memory. -/
theorem extract_raw {rows cols n : Nat} {buf : List K} {r : Nd K} {E : Nat → Nat → Nat → K} (h : Shows rows cols n buf r E)
    (hb : buf.length = rows * cols * n)
    (hp : ∀ s < n, ∀ i < rows, ∀ j < cols, dot (ix rows cols s i j) r.strides = (i * cols + j) * n + s) :
    extract r.tag buf r = .ok (energies rows cols n E) := by
  have key : ∀ i < rows, ∀ j < cols, ∀ s < n, (r.mem.data buf)[r.offset + ((i * cols + j) * n + s)]? = some (E s i j) := by
    intro i hi j hj s hs
    have := h.elem s hs i hi j hj
    unfold Nd.get at this
    simp only [hp s hs i hi j hj] at this
    rw [if_pos (by positivity)] at this
    convert this using 2
    have : ((r.offset : Int) + (((i : Int) * cols + j) * n + s)) = ((r.offset + ((i * cols + j) * n + s) : Nat) : Int) := by push_cast; ring
    rw [this, Int.toNat_natCast]
  unfold extract
  rw [if_neg (by simp), if_neg (by rw [hb, h.size]; simp)]
  split
  · rename_i hc
    simp only [Bool.and_eq_true, beq_iff_eq] at hc
    have hd : r.mem.data buf = buf := by
      cases hm : r.mem with
      | buffer => rfl
      | other d => rw [hm] at hc; exact absurd hc.1 (by simp [Mem.isBuffer])
    congr 1
    apply eq_energies hb
    intro i hi j hj s hs
    have := key i hi j hj s hs
    rwa [hd, hc.2, Nat.zero_add] at this
  · have hin : buf.length = 0 ∨ r.offset + buf.length ≤ (r.mem.data buf).length := by
      by_cases h0 : buf.length = 0
      · exact Or.inl h0
      · right
        obtain ⟨i, hi, j, hj, s, hs, e⟩ := exists_index (r := rows) (c := cols) (n := n) (k := buf.length - 1) (by omega)
        have := key i hi j hj s hs
        have := (List.getElem?_eq_some_iff.1 this).1
        omega
    rw [if_pos hin]
    congr 1
    have hl : (((r.mem.data buf).drop r.offset).take buf.length).length = rows * cols * n := by
      rw [List.length_take, List.length_drop]; omega
    apply eq_energies hl
    intro i hi j hj s hs
    have hlt := index_lt hi hj hs
    rw [List.getElem?_take_of_lt (by omega), List.getElem?_drop]
    exact key i hi j hj s hs

/-! ## New arrays -/

theorem mapM_some {α β : Type} {l : List α} {f : α → Option β} {g : α → β} (h : ∀ a ∈ l, f a = some (g a)) :
    l.mapM f = some (l.map g) := by
  induction l with
  | nil => rfl
  | cons a l ih =>
    rw [List.mapM_cons, h a List.mem_cons_self, ih fun b hb => h b (List.mem_cons_of_mem _ hb)]
    rfl

/-- The indices of an array with three axes. -/
theorem indices_three (x y z : Nat) :
    indices [x, y, z] = (List.range x).flatMap fun i => (List.range y).flatMap fun j => (List.range z).map fun k => [i, j, k] := by
  simp only [indices, List.map_cons, List.map_nil, List.map_flatMap, ← List.map_eq_flatMap, List.map_map, Function.comp_def]

theorem indices_one (x : Nat) : indices [x] = (List.range x).map fun i => [i] := by
  simp only [indices, List.map_cons, List.map_nil, ← List.map_eq_flatMap]

theorem map_indices_three {x y z : Nat} (f : List Nat → K) :
    (indices [x, y, z]).map f = energies x y z fun k i j => f [i, j, k] := by
  rw [indices_three]
  unfold energies layout
  simp [List.map_flatMap, Function.comp_def]

theorem mem_indices_three {x y z : Nat} {q : List Nat} (h : q ∈ indices [x, y, z]) :
    ∃ i < x, ∃ j < y, ∃ k < z, q = [i, j, k] := by
  rw [indices_three] at h
  simp only [List.mem_flatMap, List.mem_map, List.mem_range] at h
  obtain ⟨i, hi, j, hj, k, hk, rfl⟩ := h
  exact ⟨i, hi, j, hj, k, hk, rfl⟩

/-- A copy with the axes in their order. -/
theorem store_range {x y z : Nat} {buf : List K} {a : Nd K} {E : Nat → Nat → Nat → K} (hs : a.shape = [x, y, z])
    (h : ∀ i < x, ∀ j < y, ∀ k < z, a.get buf [i, j, k] = some (E i j k)) (tag : Tag) (g : K → K) :
    a.store buf tag g [0, 1, 2] = .ok ⟨.other (energies x y z fun k i j => g (E i j k)), tag, 0, [x, y, z], [y * z, z, 1], true⟩ := by
  have : (indices [x, y, z]).mapM (fun q => a.get buf [q.getD 0 0, q.getD 1 0, q.getD 2 0])
      = some ((indices [x, y, z]).map fun q => E (q.getD 0 0) (q.getD 1 0) (q.getD 2 0)) := by
    apply mapM_some
    intro q hq
    obtain ⟨i, hi, j, hj, k, hk, rfl⟩ := mem_indices_three hq
    simpa using h i hi j hj k hk
  unfold Nd.store
  simp only [hs, List.length_cons, List.length_nil, List.map_cons, List.map_nil, List.getD_cons_zero, List.getD_cons_succ]
  rw [show List.range (0 + 1 + 1 + 1) = [0, 1, 2] from rfl]
  simp only [List.map_cons, List.map_nil, show List.idxOf 0 [0, 1, 2] = 0 from rfl, show List.idxOf 1 [0, 1, 2] = 1 from rfl,
    show List.idxOf 2 [0, 1, 2] = 2 from rfl]
  rw [this, map_indices_three]
  simp only [List.getD_cons_zero, List.getD_cons_succ]
  congr 2
  · simp [energies, layout, List.map_flatMap, Function.comp_def]
  · simp [cStrides]

/-- A copy stored in the order of the argument's memory. -/
theorem store_moved {x y z : Nat} {buf : List K} {a : Nd K} {E : Nat → Nat → Nat → K} (hs : a.shape = [x, y, z])
    (h : ∀ i < x, ∀ j < y, ∀ k < z, a.get buf [i, j, k] = some (E i j k)) (tag : Tag) (g : K → K) :
    a.store buf tag g [1, 2, 0] = .ok ⟨.other (energies y z x fun i j k => g (E i j k)), tag, 0, [x, y, z], [1, z * x, x], true⟩ := by
  have : (indices [y, z, x]).mapM (fun q => a.get buf [q.getD 2 0, q.getD 0 0, q.getD 1 0])
      = some ((indices [y, z, x]).map fun q => E (q.getD 2 0) (q.getD 0 0) (q.getD 1 0)) := by
    apply mapM_some
    intro q hq
    obtain ⟨i, hi, j, hj, k, hk, rfl⟩ := mem_indices_three hq
    simpa using h k hk i hi j hj
  unfold Nd.store
  simp only [hs, List.length_cons, List.length_nil, List.map_cons, List.map_nil, List.getD_cons_zero, List.getD_cons_succ]
  rw [show List.range (0 + 1 + 1 + 1) = [0, 1, 2] from rfl]
  simp only [List.map_cons, List.map_nil, show List.idxOf 0 [1, 2, 0] = 2 from rfl, show List.idxOf 1 [1, 2, 0] = 0 from rfl,
    show List.idxOf 2 [1, 2, 0] = 1 from rfl]
  rw [this, map_indices_three]
  simp only [List.getD_cons_zero, List.getD_cons_succ]
  congr 2
  · simp [energies, layout, List.map_flatMap, Function.comp_def]
  · simp [cStrides]

/-- A copy stored in Fortran order. -/
theorem store_fortran {x y z : Nat} {buf : List K} {a : Nd K} {E : Nat → Nat → Nat → K} (hs : a.shape = [x, y, z])
    (h : ∀ i < x, ∀ j < y, ∀ k < z, a.get buf [i, j, k] = some (E i j k)) (tag : Tag) (g : K → K) :
    a.store buf tag g [2, 1, 0] = .ok ⟨.other (energies z y x fun i k j => g (E i j k)), tag, 0, [x, y, z], [1, x, y * x], true⟩ := by
  have : (indices [z, y, x]).mapM (fun q => a.get buf [q.getD 2 0, q.getD 1 0, q.getD 0 0])
      = some ((indices [z, y, x]).map fun q => E (q.getD 2 0) (q.getD 1 0) (q.getD 0 0)) := by
    apply mapM_some
    intro q hq
    obtain ⟨i, hi, j, hj, k, hk, rfl⟩ := mem_indices_three hq
    simpa using h k hk j hj i hi
  unfold Nd.store
  simp only [hs, List.length_cons, List.length_nil, List.map_cons, List.map_nil, List.getD_cons_zero, List.getD_cons_succ]
  rw [show List.range (0 + 1 + 1 + 1) = [0, 1, 2] from rfl]
  simp only [List.map_cons, List.map_nil, show List.idxOf 0 [2, 1, 0] = 2 from rfl, show List.idxOf 1 [2, 1, 0] = 1 from rfl,
    show List.idxOf 2 [2, 1, 0] = 0 from rfl]
  rw [this, map_indices_three]
  simp only [List.getD_cons_zero, List.getD_cons_succ]
  congr 2
  · simp [energies, layout, List.map_flatMap, Function.comp_def]
  · simp [cStrides]

/-- A copy of an array with one axis. -/
theorem store_one {n : Nat} {buf : List K} {a : Nd K} {E : Nat → K} (hs : a.shape = [n])
    (h : ∀ i < n, a.get buf [i] = some (E i)) (tag : Tag) (g : K → K) :
    a.store buf tag g [0] = .ok ⟨.other ((List.range n).map fun i => g (E i)), tag, 0, [n], [1], true⟩ := by
  have : (indices [n]).mapM (fun q => a.get buf [q.getD 0 0]) = some ((indices [n]).map fun q => E (q.getD 0 0)) := by
    apply mapM_some
    intro q hq
    rw [indices_one] at hq
    obtain ⟨i, hi, rfl⟩ := List.mem_map.1 hq
    simpa using h i (List.mem_range.1 hi)
  unfold Nd.store
  simp only [hs, List.length_cons, List.length_nil, List.map_cons, List.map_nil, List.getD_cons_zero]
  rw [show List.range (0 + 1) = [0] from rfl]
  simp only [List.map_cons, List.map_nil, show List.idxOf 0 [0] = 0 from rfl]
  rw [this, indices_one]
  simp [cStrides, Function.comp_def]

/-! ## The flags -/

theorem cContiguous_new {x y z : Nat} (m : Mem K) (tag : Tag) (o : Nat) (b : Bool) :
    (⟨m, tag, o, [x, y, z], [y * z, z, 1], b⟩ : Nd K).cContiguous = true := by
  unfold Nd.cContiguous
  simp only [List.zip_cons_cons, List.zip_nil_right, List.reverse_cons, List.reverse_nil, List.nil_append, List.cons_append,
    contigFrom, Nd.size]
  by_cases hz : z = 1
  · subst hz
    by_cases hy : y = 1
    · subst hy; simp
    · simp [hy]
  · by_cases hy : y = 1
    · subst hy; simp [hz]
    · simp [hz, hy, Int.mul_comm]

theorem contigFrom_singletons {x y z : Nat} {s t u : Int} {a : Nd K} (h1 : a.shape = [x, y, z]) (h2 : a.strides = [s, t, u])
    (hc : a.cContiguous = false) : 0 < x ∧ 0 < y ∧ 0 < z := by
  unfold Nd.cContiguous at hc
  simp only [Nd.size, h1, Bool.or_eq_false_iff, beq_eq_false_iff_ne, ne_eq] at hc
  have h0 := hc.1
  simp only [List.prod_cons, List.prod_nil] at h0
  refine ⟨Nat.pos_of_ne_zero ?_, Nat.pos_of_ne_zero ?_, Nat.pos_of_ne_zero ?_⟩ <;> rintro rfl <;> simp at h0

/-- The axes of an array stored like the argument. -/
theorem axes_moved {n r c : Nat} {a : Nd K} (h1 : a.shape = [n, r, c]) (h2 : a.strides = [1, (c : Int) * n, (n : Int)]) :
    (a.cContiguous = true ∧ a.axes = [0, 1, 2]) ∨ ((r = 1 ∨ c = 1) ∧ a.axes = [2, 1, 0]) ∨ a.axes = [1, 2, 0] := by
  by_cases hc : a.cContiguous = true
  · left
    refine ⟨hc, ?_⟩
    unfold Nd.axes
    simp [hc, h1]; rfl
  · right
    rw [Bool.not_eq_true] at hc
    obtain ⟨p1, p2, p3⟩ := contigFrom_singletons h1 h2 hc
    have hn : n ≠ 1 := by
      rintro rfl
      unfold Nd.cContiguous at hc
      simp only [h1, h2, List.zip_cons_cons, List.zip_nil_right, List.reverse_cons, List.reverse_nil, List.nil_append,
        List.cons_append, contigFrom] at hc
      by_cases hz : c = 1
      · subst hz; by_cases hr : r = 1 <;> simp [hr, contigFrom] at hc
      · by_cases hr : r = 1 <;> simp [hr, hz, contigFrom] at hc
    unfold Nd.axes
    rw [hc]
    simp only [h1, List.length_cons, List.length_nil, Bool.false_or]
    rw [if_neg (by decide)]
    by_cases hf : a.fContiguous = true
    · left
      rw [if_pos hf]
      refine ⟨?_, rfl⟩
      by_contra hne
      rw [not_or] at hne
      unfold Nd.fContiguous at hf
      simp only [h1, h2, Nd.size, List.zip_cons_cons, List.zip_nil_right, contigFrom, if_neg hn, if_neg hne.1, if_neg hne.2] at hf
      simp only [Bool.or_eq_true, beq_iff_eq, List.prod_cons, List.prod_nil, Bool.and_eq_true, decide_eq_true_eq] at hf
      rcases hf with hf | hf
      · have : 0 < n * (r * (c * 1)) := by positivity
        omega
      · have := hf.2.1
        have e : c * n = n := by
          have : ((c : Int) * n) = n := by rw [this]; ring
          exact_mod_cast this
        exact hne.2 (Nat.eq_of_mul_eq_mul_right p1 (by rw [e, Nat.one_mul]))
    · right
      rw [if_neg hf]
      rw [show List.range (0 + 1 + 1 + 1) = [0, 1, 2] from rfl, h2]
      have e1 : n ≤ c * n := Nat.le_mul_of_pos_left n p3
      have e2 : ¬ c * n ≤ 1 := by omega
      have e3 : ¬ n ≤ 1 := by omega
      have e4 : ((c : Int) * n).natAbs = c * n := by rw [Int.natAbs_mul]; simp
      simp only [List.insertionSort, List.foldr_cons, List.foldr_nil, List.orderedInsert, List.getD_cons_succ, List.getD_cons_zero,
        Int.natAbs_natCast, e4, Int.natAbs_one, if_pos e1, if_neg e2, if_neg e3]

theorem axes_contiguous {n r c : Nat} {a : Nd K} (h1 : a.shape = [n, r, c]) (hc : a.cContiguous = true) : a.axes = [0, 1, 2] := by
  unfold Nd.axes
  simp [hc, h1]; rfl

theorem axes_one {n : Nat} {a : Nd K} (h1 : a.shape = [n]) : a.axes = [0] := by
  unfold Nd.axes
  simp [h1]

end Verif.Binding
