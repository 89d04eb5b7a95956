import Verif.Binding.ModifierLemmas
import Verif.Hamiltonian.Translate

/-!
# C72: modifiers written in Python
-/

namespace Verif.Binding

open Verif.Hamiltonian (layout length_layout getElem?_layout OnsiteModifier OnsiteElementwise HoppingModifier Elementwise)

variable {K : Type}

/-! ## Specification -/

/-- Element `[s, i, j]` is stored where the C++ code has the energy of site `s` for the orbitals `i` and `j`. -/
def InPlace (rows cols n : Nat) (strides : List Int) : Prop :=
  ∀ s < n, ∀ i < rows, ∀ j < cols, dot (ix rows cols s i j) strides = (i * cols + j) * n + s

/-- Ways to store a result `r` (of the shape of the argument) from which its elements arrive in the Hamiltonian. -/
def Safe (tag : Tag) (rows cols n : Nat) (r : Nd K) : Prop :=
  if r.tag = tag then (r.shape.length = 3 ∧ r.owns = true ∧ r.cContiguous = true) ∨ InPlace rows cols n r.strides
  else (rows = 1 ∧ cols = 1) ∨ r.cContiguous = true ∨ r.axes = [1, 2, 0] ∨ ((rows = 1 ∨ cols = 1) ∧ r.axes = [2, 1, 0])

/-! ## The way back -/

/-- What happens to a single result. -/
def accept (conv : Tag → Tag → K → K) (cbc : Bool) (tag : Tag) (buf : List K) (r : Nd K) : Res (List K) := do
  let a ← castResult conv cbc buf tag r
  let b ← moveResult buf a
  extract tag buf b

/-- A new array with three axes that owns its memory is moved back. -/
theorem accept_owned {rows cols n : Nat} {buf : List K} {r : Nd K} {E : Nat → Nat → Nat → K} (h : Shows rows cols n buf r E)
    (hs : ¬(rows = 1 ∧ cols = 1)) (hb : buf.length = rows * cols * n) (ho : r.owns = true) (hc : r.cContiguous = true) :
    (moveResult buf r >>= extract r.tag buf) = .ok (energies rows cols n E) := by
  have hshape : r.shape = [n, rows, cols] := by rw [h.shape, if_neg hs]
  have hlen : r.strides.length = 3 := by rw [h.strides, hshape]; rfl
  obtain ⟨s, t, u, hst⟩ := List.length_eq_three.1 hlen
  unfold moveResult
  rw [if_pos (by simp [hshape, ho, hc])]
  have hm : r.moveBack = { r with shape := [rows, cols, n], strides := [t, u, s], owns := false } := by
    unfold Nd.moveBack
    rw [hshape, hst]
  have hg : ∀ i < rows, ∀ j < cols, ∀ k < n, r.moveBack.get buf [i, j, k] = some (E k i j) := by
    intro i hi j hj k hk
    have := h.elem k hk i hi j hj
    rw [ix, if_neg hs] at this
    rw [← this, hm]
    have e : dot [i, j, k] [t, u, s] = dot [k, i, j] r.strides := by
      rw [hst]
      simp only [dot]
      ring
    unfold Nd.get
    simp only [e]
  have hcp : r.moveBack.copy buf = .ok ⟨.other (energies rows cols n fun k i j => E k i j), r.tag, 0, [rows, cols, n],
      [cols * n, n, 1], true⟩ := by
    unfold Nd.copy
    have e1 : r.moveBack.shape = [rows, cols, n] := by rw [hm]
    have e2 : r.moveBack.tag = r.tag := by rw [hm]
    rw [e1, e2]
    exact store_range e1 hg r.tag id
  rw [hcp]
  simp only [Res.bind_ok]
  unfold extract
  rw [if_neg (by simp), if_neg (by rw [hb]; simp [Nd.size]; ring)]
  simp only [Mem.isBuffer, Bool.false_and, Bool.false_eq_true, if_false, Mem.data, Nat.zero_add, List.drop_zero]
  rw [if_pos (by rw [length_energies, hb]; exact Or.inr (le_refl _)), List.take_of_length_le (by rw [length_energies, hb])]

/-- An array stored in the order of the argument. -/
theorem accept_positions {rows cols n : Nat} {buf : List K} {r : Nd K} {E : Nat → Nat → Nat → K} (h : Shows rows cols n buf r E)
    (hb : buf.length = rows * cols * n)
    (hp : InPlace rows cols n r.strides) :
    (moveResult buf r >>= extract r.tag buf) = .ok (energies rows cols n E) := by
  by_cases hc : (r.shape.length = 3 && r.owns && r.cContiguous) = true
  · have h' := hc
    simp only [Bool.and_eq_true, decide_eq_true_eq] at h'
    refine accept_owned h ?_ hb h'.1.2 h'.2
    intro hs
    have := h.shape
    rw [if_pos hs] at this
    rw [this] at h'
    simp at h'
  · unfold moveResult
    rw [if_neg hc]
    exact extract_raw h hb hp

theorem strides_positions {rows cols n : Nat} (hs : ¬(rows = 1 ∧ cols = 1)) {st : List Int} (h : st = [1, (cols : Int) * n, (n : Int)]) :
    InPlace rows cols n st := by
  intro s _ i _ j _
  rw [ix, if_neg hs, h]
  simp only [dot]
  ring

/-- A result is accepted with its elements, converted to the type of the argument. -/
theorem accept_safe (conv : Tag → Tag → K → K) (cbc : Bool) {tag : Tag} {rows cols n : Nat} {buf : List K} {r : Nd K}
    {E : Nat → Nat → Nat → K} (h : Shows rows cols n buf r E) (hb : buf.length = rows * cols * n) (hk : r.tag.kind ≤ tag.kind)
    (hsafe : Safe tag rows cols n r) :
    accept conv cbc tag buf r =
      .ok (energies rows cols n fun s i j => if r.tag = tag then E s i j else conv r.tag tag (E s i j)) := by
  unfold accept castResult
  rw [if_pos hk]
  unfold Nd.astype
  by_cases ht : r.tag = tag
  · simp only [if_pos ht, Res.bind_ok]
    rw [Safe, if_pos ht] at hsafe
    rw [← ht]
    rcases hsafe with h1 | h1
    · refine accept_owned h ?_ hb h1.2.1 h1.2.2
      intro hs
      have := h.shape
      rw [if_pos hs] at this
      rw [this] at h1
      simp at h1
    · exact accept_positions h hb h1
  · simp only [if_neg ht]
    by_cases hs : rows = 1 ∧ cols = 1
    · have hs' := hs
      obtain ⟨rfl, rfl⟩ := hs
      have hshape : r.shape = [n] := by rw [h.shape, if_pos hs']
      rw [axes_one hshape]
      rw [store_one (E := fun s => E s 0 0) hshape (by
        intro i hi
        have := h.elem i hi 0 Nat.one_pos 0 Nat.one_pos
        rwa [ix, if_pos hs'] at this)]
      simp only [Res.bind_ok]
      refine accept_positions (r := ⟨.other _, tag, 0, [n], [1], true⟩) (E := fun s i j => conv r.tag tag (E s i j))
        ⟨by rw [if_pos hs'], rfl, ?_⟩ hb ?_
      · intro s hs i hi j hj
        have hi0 : i = 0 := by omega
        have hj0 : j = 0 := by omega
        subst hi0 hj0
        rw [ix, if_pos hs']
        simp [Nd.get, dot, Mem.data, hs]
      · intro s _ i hi j hj
        have hi0 : i = 0 := by omega
        have hj0 : j = 0 := by omega
        subst hi0 hj0
        rw [ix, if_pos hs']
        simp [dot]
    · have hshape : r.shape = [n, rows, cols] := by rw [h.shape, if_neg hs]
      have helem : ∀ s < n, ∀ i < rows, ∀ j < cols, r.get buf [s, i, j] = some (E s i j) := by
        intro s h1 i h2 j h3
        have := h.elem s h1 i h2 j h3
        rwa [ix, if_neg hs] at this
      -- the three orders in which the copy may be stored
      have contiguous : r.cContiguous = true →
          (r.store buf tag (conv r.tag tag) r.axes >>= fun a => moveResult buf a >>= extract tag buf) =
            .ok (energies rows cols n fun s i j => conv r.tag tag (E s i j)) := by
        intro hc
        rw [axes_contiguous hshape hc, store_range hshape helem]
        simp only [Res.bind_ok]
        refine accept_owned (r := ⟨.other _, tag, 0, [n, rows, cols], [rows * cols, cols, 1], true⟩)
          (E := fun s i j => conv r.tag tag (E s i j)) ⟨by rw [if_neg hs], rfl, ?_⟩ hs hb rfl (cContiguous_new _ _ _ _)
        intro s h1 i h2 j h3
        rw [ix, if_neg hs]
        unfold Nd.get
        have e : ((0 : Nat) : Int) + dot [s, i, j] [(rows : Int) * cols, (cols : Int), 1] = (((s * rows + i) * cols + j : Nat) : Int) := by
          simp only [dot]; push_cast; ring
        simp only [e]
        rw [if_pos (by positivity), Int.toNat_natCast]
        exact getElem?_energies (fun k i j => conv r.tag tag (E i j k)) h1 h2 h3
      have moved : r.axes = [1, 2, 0] →
          (r.store buf tag (conv r.tag tag) r.axes >>= fun a => moveResult buf a >>= extract tag buf) =
            .ok (energies rows cols n fun s i j => conv r.tag tag (E s i j)) := by
        intro hax
        rw [hax, store_moved hshape helem]
        simp only [Res.bind_ok]
        refine accept_positions (r := ⟨.other _, tag, 0, [n, rows, cols], [1, (cols : Int) * n, (n : Int)], true⟩)
          (E := fun s i j => conv r.tag tag (E s i j)) ⟨by rw [if_neg hs], rfl, ?_⟩ hb (strides_positions hs rfl)
        intro s h1 i h2 j h3
        unfold Nd.get
        simp only [strides_positions hs rfl s h1 i h2 j h3]
        have e : ((0 : Nat) : Int) + (((i : Int) * cols + j) * n + s) = (((i * cols + j) * n + s : Nat) : Int) := by
          push_cast; ring
        rw [e, if_pos (by positivity), Int.toNat_natCast]
        exact getElem?_energies (fun s i j => conv r.tag tag (E s i j)) h2 h3 h1
      have fortran : (rows = 1 ∨ cols = 1) → r.axes = [2, 1, 0] →
          (r.store buf tag (conv r.tag tag) r.axes >>= fun a => moveResult buf a >>= extract tag buf) =
            .ok (energies rows cols n fun s i j => conv r.tag tag (E s i j)) := by
        intro hone hax
        rw [hax, store_fortran hshape helem]
        simp only [Res.bind_ok]
        have pos : InPlace rows cols n [1, (n : Int), (rows : Int) * n] := by
          intro s _ i hi j hj
          rw [ix, if_neg hs]
          simp only [dot]
          rcases hone with h1 | h1
          · have : i = 0 := by omega
            subst this
            rw [h1]; push_cast; ring
          · have : j = 0 := by omega
            subst this
            rw [h1]; push_cast; ring
        refine accept_positions (r := ⟨.other _, tag, 0, [n, rows, cols], [1, (n : Int), (rows : Int) * n], true⟩)
          (E := fun s i j => conv r.tag tag (E s i j)) ⟨by rw [if_neg hs], rfl, ?_⟩ hb pos
        intro s h1 i h2 j h3
        unfold Nd.get
        rw [ix, if_neg hs]
        have e : ((0 : Nat) : Int) + dot [s, i, j] [1, (n : Int), (rows : Int) * n] = (((j * rows + i) * n + s : Nat) : Int) := by
          simp only [dot]; push_cast; ring
        simp only [e]
        rw [if_pos (by positivity), Int.toNat_natCast]
        exact getElem?_energies (fun i k j => conv r.tag tag (E i j k)) h3 h2 h1
      rw [Safe, if_neg ht] at hsafe
      rcases hsafe with h1 | h1 | h1 | h1
      · exact absurd h1 hs
      · exact contiguous h1
      · exact moved h1
      · exact fortran h1.1 h1.2

/-! ## The argument -/

/-- The tag is one of the types of energies. -/
abbrev EnergyTag (tag : Tag) : Prop := 3 ≤ tag.kind

theorem energyTag_mem {tag : Tag} (h : EnergyTag tag) : dtypeOf tag ∈ complexTypes := by
  cases tag <;> simp [EnergyTag, Tag.kind] at h <;> decide

/-- The array that the Python function gets. -/
def view (tag : Tag) (rows cols n : Nat) : Nd K := processArg (toNumpy (energyRef tag rows cols n))

/-- **C72** (argument).  The function of the user gets an array of the type of the Hamiltonian whose element `[s]` (one orbital) or
`[s, i, j]` is the energy of site or hopping `s` for the orbitals `i` and `j`. -/
theorem C72_argument (tag : Tag) (rows cols n : Nat) (E : Nat → Nat → Nat → K) :
    (view tag rows cols n : Nd K).tag = tag ∧ Shows rows cols n (energies rows cols n E) (view tag rows cols n) E := by
  by_cases hs : rows = 1 ∧ cols = 1
  · have hv : (view tag rows cols n : Nd K) = ⟨.buffer, tag, 0, [n], [1], false⟩ := by
      unfold view energyRef
      rw [if_pos hs]
      rfl
    rw [hv]
    refine ⟨rfl, by rw [if_pos hs], rfl, ?_⟩
    intro s h1 i h2 j h3
    obtain ⟨rfl, rfl⟩ := hs
    have hi0 : i = 0 := by omega
    have hj0 : j = 0 := by omega
    subst hi0 hj0
    have := getElem?_energies E h2 h3 h1
    simp only [Nat.zero_mul, Nat.zero_add] at this
    rw [ix, if_pos ⟨rfl, rfl⟩]
    unfold Nd.get
    simpa [dot, Mem.data] using this
  · have hv : (view tag rows cols n : Nd K) = ⟨.buffer, tag, 0, [n, rows, cols], [1, (cols : Int) * n, (n : Int)], false⟩ := by
      unfold view energyRef
      rw [if_neg hs]
      simp [processArg, toNumpy, arrayref3, Nd.moveFront, cStrides]
    rw [hv]
    refine ⟨rfl, by rw [if_neg hs], rfl, ?_⟩
    intro s h1 i h2 j h3
    unfold Nd.get
    simp only [strides_positions hs rfl s h1 i h2 j h3]
    have e : ((0 : Nat) : Int) + (((i : Int) * cols + j) * n + s) = (((i * cols + j) * n + s : Nat) : Int) := by
      push_cast; ring
    rw [e, if_pos (by positivity), Int.toNat_natCast]
    exact getElem?_energies E h2 h3 h1

/-! ## The whole way -/

theorem mapM_single {α β : Type} (a : α) (f : α → Res β) : [a].mapM f = (f a >>= fun b => Res.ok [b]) := by
  cases h : f a <;> simp only [List.mapM, List.mapM.loop, h] <;> rfl

theorem mapM_cons_res {α β : Type} (a : α) (l : List α) (f : α → Res β) :
    (a :: l).mapM f = (f a >>= fun b => l.mapM f >>= fun bs => Res.ok (b :: bs)) := by
  have loop : ∀ (l : List α) (acc : List β), List.mapM.loop f l acc = (List.mapM.loop f l [] >>= fun bs => Res.ok (acc.reverse ++ bs)) := by
    intro l
    induction l with
    | nil => intro acc; simp [List.mapM.loop]
    | cons a l ih =>
      intro acc
      simp only [List.mapM.loop]
      cases f a with
      | err e => rfl
      | ub => rfl
      | ok b =>
        show List.mapM.loop f l (b :: acc) = (List.mapM.loop f l [b] >>= fun bs => Res.ok (acc.reverse ++ bs))
        rw [ih (b :: acc), ih [b]]
        cases List.mapM.loop f l [] with
        | err e => rfl
        | ub => rfl
        | ok bs => simp
  show List.mapM.loop f (a :: l) [] = _
  simp only [List.mapM.loop]
  cases f a with
  | err e => rfl
  | ub => rfl
  | ok b =>
    show List.mapM.loop f l [b] = _
    rw [loop l [b]]
    rfl

theorem energyRef_size (tag : Tag) (rows cols n : Nat) : (energyRef tag rows cols n).size = rows * cols * n := by
  unfold energyRef
  split
  · rename_i h; simp [ArrayRef.size, arrayref1, h.1, h.2]
  · simp [ArrayRef.size, arrayref3, Nat.mul_assoc]

theorem energyRef_tag (tag : Tag) (rows cols n : Nat) : (energyRef tag rows cols n).tag = tag := by
  unfold energyRef
  split <;> rfl

/-- A call of a modifier whose function returns one array of the right size. -/
theorem applyPython_eq {Q : Type} (conv : Tag → Tag → K → K) {tag : Tag} (ht : EnergyTag tag) (rows cols n : Nat)
    (f : PyFunction K Q) (data : List K) (q : Q) {buf : List K} {r : Nd K}
    (hf : f (view tag rows cols n) data q = (buf, [some r])) (hr : r.size = rows * cols * n) :
    applyPython conv tag rows cols n f data q = accept conv true tag buf r := by
  unfold applyPython
  have hc : checkVariant complexTypes (energyRef tag rows cols n) = .ok (energyRef tag rows cols n) := by
    rw [checkVariant_eq, if_pos]
    rw [energyRef_tag]
    exact energyTag_mem ht
  rw [hc]
  simp only [Res.bind_ok]
  rw [show processArg (toNumpy (energyRef tag rows cols n)) = (view tag rows cols n : Nd K) from rfl, hf]
  simp only [sanitize, mapM_single, asArray, Res.bind_ok, energyRef_size]
  rw [if_neg (by simp), if_neg (by simp [hr])]
  unfold accept
  cases castResult conv true buf tag r with
  | err e => rfl
  | ub => rfl
  | ok a =>
    simp only [Res.bind_ok, mapM_single]
    cases moveResult buf a with
    | err e => rfl
    | ub => rfl
    | ok b =>
      simp only [Res.bind_ok]
      have := (C73_match complexTypes (energyRef tag rows cols n) fun _ => extract tag buf b).1
        (by rw [energyRef_tag]; exact energyTag_mem ht)
      exact this.2

/-- **C72** (result).  Whatever the function does with its argument: if it returns one array of the shape of the argument, of a type
that can be converted, and stored in one of the ways `Safe`, then exactly its elements become the energies. -/
theorem C72_result_partial {Q : Type} (conv : Tag → Tag → K → K) {tag : Tag} (ht : EnergyTag tag) {rows cols n : Nat}
    (f : PyFunction K Q) (data : List K) (q : Q) {buf : List K} {r : Nd K}
    (hf : f (view tag rows cols n) data q = (buf, [some r])) (hb : buf.length = rows * cols * n)
    {E : Nat → Nat → Nat → K} (h : Shows rows cols n buf r E) (hk : r.tag.kind ≤ tag.kind) (hsafe : Safe tag rows cols n r) :
    applyPython conv tag rows cols n f data q =
      .ok (energies rows cols n fun s i j => if r.tag = tag then E s i j else conv r.tag tag (E s i j)) := by
  rw [applyPython_eq conv ht rows cols n f data q hf h.size]
  exact accept_safe conv true h hb hk hsafe

/-! ## Results that are safe -/

/-- Strides of the array that numpy makes when it keeps the storage order of `a` (`np.empty_like`, functions of a single array). -/
def likeStrides (a : Nd K) : List Int :=
  (List.range a.shape.length).map fun x => (cStrides (a.axes.map fun x => a.shape.getD x 0)).getD (a.axes.idxOf x) 0

theorem view_one (tag : Tag) {rows cols : Nat} (hs : rows = 1 ∧ cols = 1) (n : Nat) :
    (view tag rows cols n : Nd K) = ⟨.buffer, tag, 0, [n], [1], false⟩ := by
  unfold view energyRef
  rw [if_pos hs]
  rfl

theorem view_three (tag : Tag) {rows cols : Nat} (hs : ¬(rows = 1 ∧ cols = 1)) (n : Nat) :
    (view tag rows cols n : Nd K) = ⟨.buffer, tag, 0, [n, rows, cols], [1, (cols : Int) * n, (n : Int)], false⟩ := by
  unfold view energyRef
  rw [if_neg hs]
  simp [processArg, toNumpy, arrayref3, Nd.moveFront, cStrides]

theorem inPlace_view (tag : Tag) (rows cols n : Nat) : InPlace rows cols n (view tag rows cols n : Nd K).strides := by
  by_cases hs : rows = 1 ∧ cols = 1
  · rw [view_one tag hs]
    intro s _ i hi j hj
    obtain ⟨rfl, rfl⟩ := hs
    have hi0 : i = 0 := by omega
    have hj0 : j = 0 := by omega
    subst hi0 hj0
    rw [ix, if_pos ⟨rfl, rfl⟩]
    simp [dot]
  · rw [view_three tag hs]
    exact strides_positions hs rfl

theorem inPlace_fortran {rows cols n : Nat} (hs : ¬(rows = 1 ∧ cols = 1)) (h1 : rows = 1 ∨ cols = 1) :
    InPlace rows cols n [1, (n : Int), (rows : Int) * n] := by
  intro s _ i hi j hj
  rw [ix, if_neg hs]
  simp only [dot]
  rcases h1 with h1 | h1
  · have : i = 0 := by omega
    subst this
    rw [h1]; push_cast; ring
  · have : j = 0 := by omega
    subst this
    rw [h1]; push_cast; ring

theorem axes_fortran {x y z : Nat} {a : Nd K} (h1 : a.shape = [x, y, z]) (h2 : a.strides = [1, (x : Int), (y : Int) * x]) :
    a.cContiguous = true ∨ a.axes = [2, 1, 0] := by
  by_cases hc : a.cContiguous = true
  · exact Or.inl hc
  right
  have hf : a.fContiguous = true := by
    unfold Nd.fContiguous
    simp only [h1, h2, List.zip_cons_cons, List.zip_nil_right, contigFrom]
    by_cases hx : x = 1
    · subst hx
      by_cases hy : y = 1
      · subst hy; simp
      · by_cases hz : z = 1 <;> simp [hy, hz]
    · by_cases hy : y = 1
      · subst hy; by_cases hz : z = 1 <;> simp [hx, hz]
      · by_cases hz : z = 1 <;> simp [hx, hy, hz, mul_comm]
  unfold Nd.axes
  simp [hc, hf, h1]
  rfl

/-- A new array in the storage order of the argument is safe. -/
theorem safe_like (tag : Tag) {rows cols n : Nat} {buf : List K} {r : Nd K} {E : Nat → Nat → Nat → K} (h : Shows rows cols n buf r E)
    (ho : r.owns = true) (hst : r.strides = likeStrides (view tag rows cols n : Nd K)) : Safe tag rows cols n r := by
  by_cases hs : rows = 1 ∧ cols = 1
  · by_cases ht : r.tag = tag
    · rw [Safe, if_pos ht]
      right
      have : likeStrides (view tag rows cols n : Nd K) = (view tag rows cols n : Nd K).strides := by
        rw [view_one tag hs]
        unfold likeStrides
        rw [axes_one (n := n) rfl]
        rfl
      rw [hst, this]
      exact inPlace_view tag rows cols n
    · rw [Safe, if_neg ht]
      exact Or.inl hs
  · have hshape : r.shape = [n, rows, cols] := by rw [h.shape, if_neg hs]
    rw [view_three tag hs] at hst
    rcases axes_moved (a := (⟨.buffer, tag, 0, [n, rows, cols], [1, (cols : Int) * n, (n : Int)], false⟩ : Nd K)) rfl rfl with h1 | h1 | h1
    · have e : r.strides = [(rows : Int) * cols, (cols : Int), 1] := by
        rw [hst]
        unfold likeStrides
        rw [h1.2]
        simp [cStrides, List.range_succ, List.idxOf, List.findIdx_cons]
      have hc : r.cContiguous = true := by
        have := cContiguous_new (x := n) (y := rows) (z := cols) r.mem r.tag r.offset r.owns
        rw [show r = ⟨r.mem, r.tag, r.offset, [n, rows, cols], [(rows : Int) * cols, (cols : Int), 1], r.owns⟩ by
          rw [← e, ← hshape]]
        exact this
      by_cases ht : r.tag = tag
      · rw [Safe, if_pos ht]
        exact Or.inl ⟨by rw [hshape]; rfl, ho, hc⟩
      · rw [Safe, if_neg ht]
        exact Or.inr (Or.inl hc)
    · have e : r.strides = [1, (n : Int), (rows : Int) * n] := by
        rw [hst]
        unfold likeStrides
        rw [h1.2]
        simp [cStrides, List.range_succ, List.idxOf, List.findIdx_cons]
      by_cases ht : r.tag = tag
      · rw [Safe, if_pos ht, e]
        exact Or.inr (inPlace_fortran hs h1.1)
      · rw [Safe, if_neg ht]
        rcases axes_fortran hshape e with h2 | h2
        · exact Or.inr (Or.inl h2)
        · exact Or.inr (Or.inr (Or.inr ⟨h1.1, h2⟩))
    · have e : r.strides = [1, (cols : Int) * n, (n : Int)] := by
        rw [hst]
        unfold likeStrides
        rw [h1]
        simp [cStrides, List.range_succ, List.idxOf, List.findIdx_cons]
      by_cases ht : r.tag = tag
      · rw [Safe, if_pos ht, e]
        exact Or.inr (strides_positions hs rfl)
      · rw [Safe, if_neg ht]
        rcases axes_moved hshape e with h2 | h2 | h2
        · exact Or.inr (Or.inl h2.1)
        · exact Or.inr (Or.inr (Or.inr h2))
        · exact Or.inr (Or.inr (Or.inl h2))

/-- A new array in C order is safe. -/
theorem safe_new (tag : Tag) {rows cols n : Nat} {buf : List K} {r : Nd K} {E : Nat → Nat → Nat → K} (h : Shows rows cols n buf r E)
    (ho : r.owns = true) (hc : r.cContiguous = true) : Safe tag rows cols n r := by
  by_cases hs : rows = 1 ∧ cols = 1
  · by_cases ht : r.tag = tag
    · rw [Safe, if_pos ht]
      right
      have hshape : r.shape = [n] := by rw [h.shape, if_pos hs]
      have hst := h.strides
      rw [hshape] at hst
      obtain ⟨a, ha⟩ := List.length_eq_one_iff.1 hst
      intro s hs' i hi j hj
      rw [ix, if_pos hs, ha]
      obtain ⟨rfl, rfl⟩ := hs
      have hi0 : i = 0 := by omega
      have hj0 : j = 0 := by omega
      subst hi0 hj0
      unfold Nd.cContiguous at hc
      simp only [Nd.size, hshape, ha, List.zip_cons_cons, List.zip_nil_right, List.reverse_cons, List.reverse_nil, List.nil_append,
        contigFrom, List.prod_cons, List.prod_nil, Bool.or_eq_true, beq_iff_eq] at hc
      rcases hc with hc | hc
      · omega
      · by_cases hn : n = 1
        · have : s = 0 := by omega
          subst this
          simp [dot]
        · rw [if_neg hn] at hc
          simp only [Bool.and_true, decide_eq_true_eq] at hc
          subst hc
          simp [dot]
    · rw [Safe, if_neg ht]
      exact Or.inl hs
  · by_cases ht : r.tag = tag
    · rw [Safe, if_pos ht]
      exact Or.inl ⟨by rw [h.shape, if_neg hs]; rfl, ho, hc⟩
    · rw [Safe, if_neg ht]
      exact Or.inr (Or.inl hc)

/-- **C72** (new arrays).  The elements of a new array arrive, whether it is in C order (`np.zeros`, `np.array`) or in the storage order
of the argument (`np.empty_like`, `energy * 2`), and with any type that converts to that of the Hamiltonian. -/
theorem C72_new_array {Q : Type} (conv : Tag → Tag → K → K) {tag : Tag} (ht : EnergyTag tag) {rows cols n : Nat}
    (f : PyFunction K Q) (data : List K) (q : Q) {buf : List K} {r : Nd K}
    (hf : f (view tag rows cols n) data q = (buf, [some r])) (hb : buf.length = rows * cols * n)
    {E : Nat → Nat → Nat → K} (h : Shows rows cols n buf r E) (hk : r.tag.kind ≤ tag.kind) (ho : r.owns = true)
    (hst : r.cContiguous = true ∨ r.strides = likeStrides (view tag rows cols n : Nd K)) :
    applyPython conv tag rows cols n f data q =
      .ok (energies rows cols n fun s i j => if r.tag = tag then E s i j else conv r.tag tag (E s i j)) := by
  refine C72_result_partial conv ht f data q hf hb h hk ?_
  rcases hst with h1 | h1
  · exact safe_new tag h ho h1
  · exact safe_like tag h ho h1

/-- **C72** (changes in place).  A function that writes into its argument and returns it. -/
theorem C72_in_place {Q : Type} (conv : Tag → Tag → K → K) {tag : Tag} (ht : EnergyTag tag) {rows cols n : Nat}
    (f : PyFunction K Q) (data : List K) (q : Q) (E : Nat → Nat → Nat → K)
    (hf : f (view tag rows cols n) data q = (energies rows cols n E, [some (view tag rows cols n)])) :
    applyPython conv tag rows cols n f data q = .ok (energies rows cols n E) := by
  have ha := C72_argument (K := K) tag rows cols n E
  rw [C72_result_partial conv ht f data q hf (length_energies _ _ _ _) ha.2 (by rw [ha.1])
    (by rw [Safe, if_pos ha.1]; exact Or.inr (inPlace_view tag rows cols n))]
  simp only [ha.1, if_true]

/-! ## Exactly these -/

theorem castResult_same (conv : Tag → Tag → K → K) (cbc : Bool) (buf : List K) (r : Nd K) : castResult conv cbc buf r.tag r = .ok r := by
  unfold castResult Nd.astype
  rw [if_pos (le_refl _), if_pos rfl]

/-- **C72** (exact).  For a result of the type of the Hamiltonian: if the elements of its memory are all different, then its elements
arrive only if it is stored in one of the ways `Safe`. -/
theorem C72_exact {Q : Type} (conv : Tag → Tag → K → K) {tag : Tag} (ht : EnergyTag tag) {rows cols n : Nat}
    (f : PyFunction K Q) (data : List K) (q : Q) {buf : List K} {r : Nd K}
    (hf : f (view tag rows cols n) data q = (buf, [some r])) (hb : buf.length = rows * cols * n)
    {E : Nat → Nat → Nat → K} (h : Shows rows cols n buf r E) (hr : r.tag = tag) (hd : (r.mem.data buf).Nodup) :
    applyPython conv tag rows cols n f data q = .ok (energies rows cols n E) ↔ Safe tag rows cols n r := by
  constructor
  · intro hok
    rw [Safe, if_pos hr]
    by_cases hc : (r.shape.length = 3 ∧ r.owns = true ∧ r.cContiguous = true)
    · exact Or.inl hc
    right
    rw [applyPython_eq conv ht rows cols n f data q hf h.size] at hok
    unfold accept at hok
    rw [← hr, castResult_same] at hok
    simp only [Res.bind_ok] at hok
    unfold moveResult at hok
    rw [if_neg (by simpa [and_assoc] using hc)] at hok
    simp only [Res.bind_ok] at hok
    have key : ∀ p < rows * cols * n, (r.mem.data buf)[r.offset + p]? = (energies rows cols n E)[p]? := by
      unfold extract at hok
      rw [if_neg (by simp), if_neg (by rw [hb, h.size]; simp)] at hok
      intro p hp
      split at hok
      · rename_i hbuf
        simp only [Bool.and_eq_true, beq_iff_eq] at hbuf
        simp only [Res.ok.injEq] at hok
        rw [← hok, hbuf.2, Nat.zero_add]
        have : r.mem.data buf = buf := by
          cases hm : r.mem with
          | buffer => rfl
          | other d => rw [hm] at hbuf; simp [Mem.isBuffer] at hbuf
        rw [this]
      · split at hok
        · simp only [Res.ok.injEq] at hok
          rw [← hok, List.getElem?_take, if_pos (by omega), List.getElem?_drop]
        · simp at hok
    intro s hs i hi j hj
    have h1 := h.elem s hs i hi j hj
    have h2 := key _ (index_lt hi hj hs)
    rw [getElem?_energies E hi hj hs] at h2
    unfold Nd.get at h1
    dsimp only at h1
    split at h1
    · rename_i h0
      have := (List.getElem?_inj (by
        rcases List.getElem?_eq_some_iff.1 h1 with ⟨hlt, _⟩
        exact hlt) hd).1 (h1.trans h2.symm)
      have e : ((r.offset : Int) + dot (ix rows cols s i j) r.strides) = ((r.offset + ((i * cols + j) * n + s) : Nat) : Int) := by
        rw [← this, Int.toNat_of_nonneg h0]
      push_cast at e
      linarith
    · simp at h1
  · intro hsafe
    rw [C72_result_partial conv ht f data q hf hb h (by rw [hr]) hsafe]
    simp only [hr, if_true]

/-! ## Results that are refused -/

/-- **C72** (complex results).  A complex result for a real Hamiltonian is the signal to start again with complex numbers. -/
theorem C72_complex {Q : Type} (conv : Tag → Tag → K → K) {tag : Tag} (ht : tag.isFloating = true) {rows cols n : Nat}
    (f : PyFunction K Q) (data : List K) (q : Q) {buf : List K} {r : Nd K}
    (hf : f (view tag rows cols n) data q = (buf, [some r]))
    {E : Nat → Nat → Nat → K} (h : Shows rows cols n buf r E) (hr : r.tag.isComplex = true) :
    applyPython conv tag rows cols n f data q = .err .complexOverride := by
  have h3 : tag.kind = 3 := by simpa [Tag.isFloating] using ht
  have h4 : r.tag.kind = 4 := by simpa [Tag.isComplex] using hr
  have hne : r.tag ≠ tag := by intro e; rw [e] at h4; omega
  rw [applyPython_eq conv (by unfold EnergyTag; omega) rows cols n f data q hf h.size]
  unfold accept castResult
  rw [if_neg (by omega), if_pos (by simp [hr])]
  simp only [Res.bind_ok]
  have hm : ∃ b, moveResult buf r = .ok b ∧ b.tag = r.tag := by
    unfold moveResult
    split
    · rename_i hc
      simp only [Bool.and_eq_true, decide_eq_true_eq] at hc
      have hs : ¬(rows = 1 ∧ cols = 1) := by
        intro hs
        have := h.shape
        rw [if_pos hs] at this
        rw [this] at hc
        simp at hc
      have hshape : r.shape = [n, rows, cols] := by rw [h.shape, if_neg hs]
      have hlen : r.strides.length = 3 := by rw [h.strides, hshape]; rfl
      obtain ⟨s, t, u, hst⟩ := List.length_eq_three.1 hlen
      have hm : r.moveBack = { r with shape := [rows, cols, n], strides := [t, u, s], owns := false } := by
        unfold Nd.moveBack
        rw [hshape, hst]
      have e1 : r.moveBack.shape = [rows, cols, n] := by rw [hm]
      have e2 : r.moveBack.tag = r.tag := by rw [hm]
      refine ⟨⟨.other (energies rows cols n fun k i j => E k i j), r.tag, 0, [rows, cols, n], [cols * n, n, 1], true⟩, ?_, rfl⟩
      unfold Nd.copy
      rw [e1, e2]
      refine store_range (E := fun i j k => E k i j) e1 ?_ r.tag id
      intro i hi j hj k hk
      have := h.elem k hk i hi j hj
      rw [ix, if_neg hs] at this
      rw [← this, hm]
      have e : dot [i, j, k] [t, u, s] = dot [k, i, j] r.strides := by
        rw [hst]
        simp only [dot]
        ring
      unfold Nd.get
      simp only [e]
    · exact ⟨r, rfl, rfl⟩
  obtain ⟨b, hb1, hb2⟩ := hm
  rw [hb1]
  simp only [Res.bind_ok]
  unfold extract
  rw [if_pos (by rw [hb2]; exact hne), if_pos ht]

/-- **C72** (errors).  Anything but one array of the size of the argument is an exception. -/
theorem C72_refused {Q : Type} (conv : Tag → Tag → K → K) {tag : Tag} (ht : EnergyTag tag) {rows cols n : Nat}
    (f : PyFunction K Q) (data : List K) (q : Q)
    (h : ∀ r : Nd K, (f (view tag rows cols n) data q).2 = [some r] → r.size ≠ rows * cols * n) :
    applyPython conv tag rows cols n f data q = .err .runtimeError := by
  unfold applyPython
  have hc : checkVariant complexTypes (energyRef tag rows cols n) = .ok (energyRef tag rows cols n) := by
    rw [checkVariant_eq, if_pos]
    rw [energyRef_tag]
    exact energyTag_mem ht
  rw [hc]
  simp only [Res.bind_ok]
  rw [show processArg (toNumpy (energyRef tag rows cols n)) = (view tag rows cols n : Nd K) from rfl]
  have hsan : sanitize conv true 1 (f (view tag rows cols n) data q).1 tag (energyRef tag rows cols n).size
      (f (view tag rows cols n) data q).2 = .err .runtimeError := by
    have key : ∀ l : List (Option (Nd K)), (∃ rs, l.mapM asArray = .ok rs
        ∧ l = rs.map some) ∨ l.mapM asArray = .err .runtimeError := by
      intro l
      induction l with
      | nil => exact Or.inl ⟨[], rfl, rfl⟩
      | cons a l ih =>
        cases a with
        | none => right; rw [mapM_cons_res]; rfl
        | some a =>
          rcases ih with ⟨rs, h1, h2⟩ | h1
          · left
            refine ⟨a :: rs, ?_, by rw [h2]; rfl⟩
            rw [mapM_cons_res, h1]; rfl
          · right
            rw [mapM_cons_res, h1]; rfl
    unfold sanitize
    rcases key (f (view tag rows cols n) data q).2 with ⟨rs, h1, h2⟩ | h1
    · rw [h1]
      simp only [Res.bind_ok]
      by_cases hl : rs.length = 1
      · obtain ⟨r, rfl⟩ := List.length_eq_one_iff.1 hl
        rw [if_neg (by simp), if_pos]
        simp only [List.any_cons, List.any_nil, Bool.or_false, bne_iff_ne, ne_eq, energyRef_size]
        exact h r (by rw [h2]; rfl)
      · rw [if_pos hl]
    · rw [h1]; rfl
  generalize f (view tag rows cols n) data q = p at hsan
  obtain ⟨buf, res⟩ := p
  simp only at hsan ⊢
  rw [hsan]
  rfl

/-! ## Element-wise modifiers -/

variable {P : Type}

/-- Specification: the Python function of an onsite modifier returns, in an array that is stored safely, the value of `g` for each site. -/
def PyOnsite (conv : Tag → Tag → K → K) (tag : Tag) (rows : Nat) (f : PyFunction K (List P × String))
    (g : String → (Nat → Nat → K) → P → Nat → Nat → K) : Prop :=
  ∀ (name : String) (xs : List ((Nat → Nat → K) × P)), ∃ (buf : List K) (r : Nd K) (E : Nat → Nat → Nat → K),
    f (view tag rows rows xs.length) (layout rows rows (xs.map (·.1))) (xs.map (·.2), name) = (buf, [some r]) ∧
    buf.length = rows * rows * xs.length ∧ Shows rows rows xs.length buf r E ∧ r.tag.kind ≤ tag.kind ∧
    Safe tag rows rows xs.length r ∧
    ∀ s x, xs[s]? = some x → ∀ i < rows, ∀ j < rows, (if r.tag = tag then E s i j else conv r.tag tag (E s i j)) = g name x.1 x.2 i j

/-- Specification: the same for hopping modifiers. -/
def PyHopping (conv : Tag → Tag → K → K) (tag : Tag) (rows cols : Nat) (f : PyFunction K (List P × List P × String))
    (g : String → (Nat → Nat → K) → P → P → Nat → Nat → K) : Prop :=
  ∀ (name : String) (xs : List ((Nat → Nat → K) × P × P)), ∃ (buf : List K) (r : Nd K) (E : Nat → Nat → Nat → K),
    f (view tag rows cols xs.length) (layout rows cols (xs.map (·.1))) (xs.map (·.2.1), xs.map (·.2.2), name) = (buf, [some r]) ∧
    buf.length = rows * cols * xs.length ∧ Shows rows cols xs.length buf r E ∧ r.tag.kind ≤ tag.kind ∧
    Safe tag rows cols xs.length r ∧
    ∀ s x, xs[s]? = some x → ∀ i < rows, ∀ j < cols,
      (if r.tag = tag then E s i j else conv r.tag tag (E s i j)) = g name x.1 x.2.1 x.2.2 i j

theorem energies_eq_layout {α : Type} {rows cols : Nat} {xs : List α} {E : Nat → Nat → Nat → K} {G : α → Nat → Nat → K}
    (h : ∀ s x, xs[s]? = some x → ∀ i < rows, ∀ j < cols, E s i j = G x i j) :
    energies rows cols xs.length E = layout rows cols (xs.map G) := by
  apply Verif.Hamiltonian.layout_congr
  · simp
  · intro k e f he hf i j hi hj
    rw [List.getElem?_map] at he hf
    rcases hx : xs[k]? with _ | x
    · rw [hx] at hf; simp at hf
    · have hk : k < xs.length := (List.getElem?_eq_some_iff.1 hx).1
      rw [hx] at hf
      rw [List.getElem?_range hk] at he
      simp only [Option.map_some, Option.some.injEq] at he hf
      rw [← he, ← hf]
      exact h k x hx i hi j hj

/-- **C72** (onsite modifiers).  The Python function becomes an element-wise onsite modifier of the C++ code, as the theorems on the
Hamiltonian need it. -/
theorem C72_onsite (conv : Tag → Tag → K → K) {tag : Tag} (ht : EnergyTag tag) (rows : Nat) (f : PyFunction K (List P × String))
    (g : String → (Nat → Nat → K) → P → Nat → Nat → K) (h : PyOnsite conv tag rows f g) :
    OnsiteElementwise rows (fun data ps name => applyPython conv tag rows rows ps.length f data (ps, name)) g := by
  intro name xs
  obtain ⟨buf, r, E, hf, hb, hs, hk, hsafe, hg⟩ := h name xs
  simp only [List.length_map]
  rw [C72_result_partial conv ht f _ _ hf hb hs hk hsafe]
  exact congrArg Res.ok (energies_eq_layout hg)

/-- **C72** (hopping modifiers). -/
theorem C72_hopping (conv : Tag → Tag → K → K) {tag : Tag} (ht : EnergyTag tag) (rows cols : Nat)
    (f : PyFunction K (List P × List P × String)) (g : String → (Nat → Nat → K) → P → P → Nat → Nat → K)
    (h : PyHopping conv tag rows cols f g) :
    Elementwise rows cols (fun data p1 p2 name => applyPython conv tag rows cols p1.length f data (p1, p2, name)) g := by
  intro name xs
  obtain ⟨buf, r, E, hf, hb, hs, hk, hsafe, hg⟩ := h name xs
  simp only [List.length_map]
  rw [C72_result_partial conv ht f _ _ hf hb hs hk hsafe]
  exact congrArg Res.ok (energies_eq_layout hg)

/-! ## Where it goes wrong -/

theorem applyPython_view {Q : Type} (conv : Tag → Tag → K → K) {tag : Tag} (ht : EnergyTag tag) (rows cols n : Nat)
    (f : PyFunction K Q) (data : List K) (q : Q) {buf : List K} {r : Nd K}
    (hf : f (view tag rows cols n) data q = (buf, [some r])) (hr : r.size = rows * cols * n) (hb : buf.length = rows * cols * n)
    (htag : r.tag = tag) (ho : r.owns = false) :
    applyPython conv tag rows cols n f data q =
      if r.mem.isBuffer && r.offset == 0 then .ok buf
      else if buf.length = 0 ∨ r.offset + buf.length ≤ (r.mem.data buf).length then
        .ok (((r.mem.data buf).drop r.offset).take buf.length)
      else .ub := by
  rw [applyPython_eq conv ht rows cols n f data q hf hr]
  unfold accept
  rw [← htag, castResult_same]
  simp only [Res.bind_ok]
  unfold moveResult
  rw [if_neg (by simp [ho])]
  simp only [Res.bind_ok]
  unfold extract
  rw [if_neg (by simp), if_neg (by rw [hb, hr]; simp)]

/-- **C72** (first witness).  Any view of the argument that begins at its first element is ignored, for instance the transposed
matrices `energy.transpose(0, 2, 1)`: the energies do not change. -/
theorem C72_view_witness {Q : Type} (conv : Tag → Tag → K → K) {tag : Tag} (ht : EnergyTag tag) (rows cols n : Nat)
    (f : PyFunction K Q) (data : List K) (q : Q) (hb : data.length = rows * cols * n) {r : Nd K}
    (hf : f (view tag rows cols n) data q = (data, [some r])) (hr : r.size = rows * cols * n)
    (htag : r.tag = tag) (ho : r.owns = false) (hm : r.mem = .buffer) (h0 : r.offset = 0) :
    applyPython conv tag rows cols n f data q = .ok data := by
  rw [applyPython_view conv ht rows cols n f data q hf hr hb htag ho, if_pos (by rw [hm, h0]; rfl)]

/-- Such a view: element `[s, i, j]` is the old energy for the orbitals `j` and `i`. -/
example : Shows 2 2 1 [1, 2, 3, 4] (⟨.buffer, .f64, 0, [1, 2, 2], [1, 1, 2], false⟩ : Nd Nat)
    fun _ i j => if i = 0 then (if j = 0 then 1 else 3) else (if j = 0 then 2 else 4) := by
  refine ⟨rfl, rfl, ?_⟩
  intro s hs i hi j hj
  interval_cases s <;> interval_cases i <;> interval_cases j <;> decide

/-- **C72** (second witness).  `energy[::-1]`, the energies in reverse order, makes C++ read outside of the array. -/
theorem C72_reversed_witness (conv : Tag → Tag → K → K) {tag : Tag} (ht : EnergyTag tag) (n : Nat) (hn : 2 ≤ n) (E : Nat → Nat → Nat → K) :
    Shows 1 1 n (energies 1 1 n E) (⟨.buffer, tag, n - 1, [n], [-1], false⟩ : Nd K) (fun s i j => E (n - 1 - s) i j) ∧
    applyPython conv tag 1 1 n (fun a d (_ : Unit) => (d, [some { a with offset := n - 1, strides := [-1] }])) (energies 1 1 n E) () = .ub := by
  constructor
  · refine ⟨rfl, rfl, ?_⟩
    intro s hs i hi j hj
    have hi0 : i = 0 := by omega
    have hj0 : j = 0 := by omega
    subst hi0 hj0
    rw [ix, if_pos ⟨rfl, rfl⟩]
    have e : ((n - 1 : Nat) : Int) + dot [s] [-1] = ((n - 1 - s : Nat) : Int) := by
      simp only [dot]
      omega
    unfold Nd.get
    simp only [e]
    rw [if_pos (by positivity), Int.toNat_natCast]
    have := getElem?_energies (r := 1) (c := 1) E hi hj (show n - 1 - s < n by omega)
    simpa [Mem.data] using this
  · have hlen : (energies 1 1 n E).length = n := by rw [length_energies]; omega
    rw [applyPython_view (r := ⟨.buffer, tag, n - 1, [n], [-1], false⟩) conv ht 1 1 n _ _ _
      (by rw [view_one tag ⟨rfl, rfl⟩]) (by simp [Nd.size]) (by rw [hlen]; omega) rfl rfl]
    rw [if_neg (by simp; omega), if_neg]
    simp only [Mem.data, hlen]
    omega

/-- **C72** (third witness).  `np.broadcast_to(matrix, energy.shape)`, the same matrix for all sites, makes C++ read outside of the
memory of that matrix. -/
theorem C72_broadcast_witness (conv : Tag → Tag → K → K) {tag : Tag} (ht : EnergyTag tag) (n : Nat) (hn : 2 ≤ n) (a b c d : K)
    (data : List K) (hd : data.length = 4 * n) :
    Shows 2 2 n data (⟨.other [a, b, c, d], tag, 0, [n, 2, 2], [0, 2, 1], false⟩ : Nd K)
      (fun _ i j => if i = 0 then (if j = 0 then a else b) else (if j = 0 then c else d)) ∧
    applyPython conv tag 2 2 n (fun _ d' (_ : Unit) => (d', [some ⟨.other [a, b, c, d], tag, 0, [n, 2, 2], [0, 2, 1], false⟩])) data () = .ub := by
  constructor
  · refine ⟨rfl, rfl, ?_⟩
    intro s hs i hi j hj
    interval_cases i <;> interval_cases j <;> simp [Nd.get, ix, dot, Mem.data]
  · rw [applyPython_view (r := ⟨.other [a, b, c, d], tag, 0, [n, 2, 2], [0, 2, 1], false⟩) conv ht 2 2 n _ _ _
      rfl (by simp [Nd.size]; ring) (by rw [hd]) rfl rfl]
    rw [if_neg (by simp [Mem.isBuffer]), if_neg]
    simp only [Mem.data, hd, List.length_cons, List.length_nil]
    omega

/-- **C72** (fourth witness).  A C-contiguous array that does not own its memory (for instance `np.arange(8.0).reshape(2, 2, 2)`) is
not moved back: the energies are distributed to the wrong sites and orbitals. -/
theorem C72_reshaped_witness (conv : Tag → Tag → Nat → Nat) :
    Shows 2 2 2 [0, 0, 0, 0, 0, 0, 0, 0] (⟨.other [0, 1, 2, 3, 4, 5, 6, 7], .f64, 0, [2, 2, 2], [4, 2, 1], false⟩ : Nd Nat)
      (fun s i j => s * 4 + i * 2 + j) ∧
    applyPython conv .f64 2 2 2
      (fun _ d (_ : Unit) => (d, [some ⟨.other [0, 1, 2, 3, 4, 5, 6, 7], .f64, 0, [2, 2, 2], [4, 2, 1], false⟩])) [0, 0, 0, 0, 0, 0, 0, 0] ()
      = .ok [0, 1, 2, 3, 4, 5, 6, 7] ∧
    energies 2 2 2 (fun s i j => s * 4 + i * 2 + j) = [0, 4, 1, 5, 2, 6, 3, 7] := by
  refine ⟨⟨rfl, rfl, ?_⟩, ?_, by decide⟩
  · intro s hs i hi j hj
    interval_cases s <;> interval_cases i <;> interval_cases j <;> decide
  · rw [applyPython_view (r := ⟨.other [0, 1, 2, 3, 4, 5, 6, 7], .f64, 0, [2, 2, 2], [4, 2, 1], false⟩) conv (by decide) 2 2 2 _ _ _
      rfl (by decide) (by decide) rfl rfl]
    rfl

/-- **C72** (fifth witness).  Only the size is compared: a result with the axes in another order (the shape `(2, 2, n)` of the C++ code, in
a new array) is taken for one of the right shape when the sizes agree. -/
theorem C72_shape_witness (conv : Tag → Tag → Nat → Nat) :
    applyPython conv .f64 1 2 3
      (fun _ d (_ : Unit) => (d, [some ⟨.other [0, 1, 2, 3, 4, 5], .f64, 0, [1, 2, 3], [6, 3, 1], true⟩])) [0, 0, 0, 0, 0, 0] ()
      = .ok [0, 1, 2, 3, 4, 5] ∧
    applyPython conv .f64 1 2 3
      (fun _ d (_ : Unit) => (d, [some ⟨.other [0, 1, 2, 3, 4, 5], .f64, 0, [6], [1], true⟩])) [0, 0, 0, 0, 0, 0] ()
      = .ok [0, 1, 2, 3, 4, 5] := by
  constructor <;> rfl

/-! ## Concrete cases -/

/-- `energy * 2` on two sites with two orbitals: the result keeps the storage order of the argument. -/
example (conv : Tag → Tag → Nat → Nat) (E : Nat → Nat → Nat → Nat) :
    applyPython conv .f64 2 2 2
      (fun a d (_ : Unit) => (d, [some ⟨.other (d.map (2 * ·)), .f64, 0, [2, 2, 2], [1, 4, 2], true⟩])) (energies 2 2 2 E) () =
      .ok (energies 2 2 2 fun s i j => 2 * E s i j) := by
  rw [C72_new_array (tag := .f64) (n := 2) (rows := 2) (cols := 2)
    (r := ⟨.other ((energies 2 2 2 E).map (2 * ·)), .f64, 0, [2, 2, 2], [1, 4, 2], true⟩) conv (by decide) _ _ _ rfl (length_energies 2 2 2 E) (E := fun s i j => 2 * E s i j) ?_ (le_refl _) rfl
    (Or.inr (by rw [view_three _ (by decide)]; show [1, 4, 2] = likeStrides (⟨.buffer, .f64, 0, [2, 2, 2], [1, 4, 2], false⟩ : Nd Nat); decide +kernel))]
  · rfl
  · refine ⟨rfl, rfl, ?_⟩
    intro s hs i hi j hj
    interval_cases s <;> interval_cases i <;> interval_cases j <;> rfl

/-- `energy + x` for one orbital: an element-wise modifier. -/
example (conv : Tag → Tag → Int → Int) :
    OnsiteElementwise 1 (fun data ps name => applyPython conv .f64 1 1 ps.length
      (fun a d (q : List Int × String) => (d, [some ⟨.other (List.zipWith (· + ·) d q.1), .f64, 0, a.shape, [1], true⟩])) data (ps, name))
      (fun _ e p i j => e i j + p) := by
  apply C72_onsite conv (by decide)
  intro name xs
  refine ⟨_, _, fun s i j => ((xs[s]?.map fun x => x.1 i j + x.2).getD 0), rfl, ?_, ⟨?_, ?_, ?_⟩, le_refl _, ?_, ?_⟩
  · rw [length_layout, List.length_map]; omega
  · rw [view_one _ ⟨rfl, rfl⟩]; rfl
  · rw [view_one _ ⟨rfl, rfl⟩]; rfl
  · intro s hs i hi j hj
    have hi0 : i = 0 := by omega
    have hj0 : j = 0 := by omega
    subst hi0 hj0
    rw [ix, if_pos ⟨rfl, rfl⟩]
    have h1 := getElem?_layout 1 1 (xs.map (·.1)) 0 0 s hi hj (by simpa using hs)
    simp only [List.length_map, Nat.zero_mul, Nat.zero_add] at h1
    unfold Nd.get
    simp [dot, Mem.data, List.getElem?_zipWith, h1, hs]
  · rw [Safe, if_pos rfl]
    exact Or.inr (inPlace_view (K := Int) .f64 1 1 xs.length)
  · intro s x hx i hi j hj
    simp [hx]

/-- A complex result for a real Hamiltonian with one site. -/
example (conv : Tag → Tag → Nat → Nat) : applyPython conv .f32 1 1 1
    (fun _ d (_ : Unit) => (d, [some ⟨.other [7], .cf64, 0, [1], [1], true⟩])) [5] () = .err .complexOverride :=
  C72_complex conv rfl _ _ _ rfl (E := fun _ _ _ => 7) ⟨rfl, rfl, by
    intro s hs i hi j hj
    interval_cases s; interval_cases i; interval_cases j; rfl⟩ rfl

/-- Results that are refused: two arrays, a number, an array that is too short. -/
example (conv : Tag → Tag → Nat → Nat) (r : Nd Nat) :
    applyPython conv .f32 1 1 2 (fun a d (_ : Unit) => (d, [some a, some r])) [5, 6] () = .err .runtimeError ∧
    applyPython conv .f32 1 1 2 (fun _ d (_ : Unit) => (d, [none])) [5, 6] () = .err .runtimeError ∧
    applyPython conv .f32 1 1 2 (fun _ d (_ : Unit) => (d, [some ⟨.other [7], .f32, 0, [1], [1], true⟩])) [5, 6] () = .err .runtimeError := by
  refine ⟨C72_refused conv (by decide) _ _ _ ?_, C72_refused conv (by decide) _ _ _ ?_, C72_refused conv (by decide) _ _ _ ?_⟩
  · intro r h; simp at h
  · intro r h; simp at h
  · intro r h
    simp only [List.cons.injEq, Option.some.injEq, and_true] at h
    subst h
    decide

end Verif.Binding
