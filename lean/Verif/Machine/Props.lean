import Verif.Machine.Model
import Verif.Foundation.Bounds
import Mathlib.Data.List.GetD

/-!
# C74: the limits of 32-bit integers
-/

namespace Verif.Machine

open Verif.Foundation Verif.Sublat Verif.Lattice

theorem nat_ok {n : Nat} (h : n ≤ maxInt) : nat n = .ok n := if_pos h
theorem nat_ub {n : Nat} (h : ¬n ≤ maxInt) : nat n = .ub := if_neg h
theorem int_ok {x : Int} (h : -2147483648 ≤ x ∧ x ≤ 2147483647) : int x = .ok x := if_pos h
theorem int_ub {x : Int} (h : ¬(-2147483648 ≤ x ∧ x ≤ 2147483647)) : int x = .ub := if_neg h

/-! ## Sizes -/

theorem prod_eq {d : Dims} (hx : 0 < d.sx) : prod d = if d.prod ≤ maxInt then .ok d.prod else .ub := by
  unfold prod
  by_cases h1 : d.sy * d.sz ≤ maxInt
  · rw [nat_ok h1]
    simp only [Res.bind_ok, nat, Dims.prod, Nat.mul_assoc]
  · rw [nat_ub h1, if_neg]
    · rfl
    · unfold Dims.prod
      rw [Nat.mul_assoc]
      intro h
      exact h1 (le_trans (Nat.le_mul_of_pos_left _ hx) h)

theorem numSites_eq {d : Dims} (hx : 0 < d.sx) {nsub : Nat} (hn : 0 < nsub) :
    numSites d nsub = if size d nsub ≤ maxInt then .ok (size d nsub) else .ub := by
  unfold numSites
  rw [prod_eq hx]
  unfold size
  by_cases h : d.prod ≤ maxInt
  · rw [if_pos h]
    rfl
  · rw [if_neg h, if_neg]
    · rfl
    · intro h'
      exact h (le_trans (Nat.le_mul_of_pos_right _ hn) h')

theorem countUp_ok {idx n : Nat} (h : idx + n ≤ maxInt) : countUp idx n = .ok (idx + n) := by
  induction n generalizing idx with
  | zero => rfl
  | succ n ih =>
    unfold countUp
    rw [nat_ok (by omega)]
    simp only [Res.bind_ok]
    rw [ih (by omega)]
    congr 1
    omega

/-- **C74** (positions).  The positions of the sites of a foundation are computed without overflow exactly if the number of its sites
(unit cells times sublattices, whether inside of the shape or not) is less than 2^31; then they are those of unbounded integers. -/
theorem C74_positions {F : Type} [Field F] (vectors : List (Fin 3 → F)) (origin : Fin 3 → F) (d : Dims) (subs : List (Fin 3 → F))
    (h0 : 0 < vectors.length) (h1 : 1 < d.sy → 1 < vectors.length) (h2 : 1 < d.sz → 2 < vectors.length) (hx : 0 < d.sx)
    (hn : 0 < subs.length) :
    generatePositions vectors origin d subs =
      if d.sx * d.sy * d.sz * subs.length < 2 ^ 31 then Foundation.generatePositions vectors origin d subs else .ub := by
  have hiff : d.sx * d.sy * d.sz * subs.length < 2 ^ 31 ↔ size d subs.length ≤ maxInt := by
    unfold size Dims.prod maxInt
    omega
  simp only [hiff]
  unfold generatePositions
  rw [numSites_eq hx hn]
  by_cases h : size d subs.length ≤ maxInt
  · rw [if_pos h, if_pos h]
    obtain ⟨ps, hps, hlen, -⟩ := generatePositions_spec vectors origin d subs h0 h1 h2
    simp only [Res.bind_ok, hps]
    rw [countUp_ok (by rw [hlen]; omega)]
    rfl
  · rw [if_neg h, if_neg h]
    rfl

/-! ## Bounds -/

theorem boundsLoop_eq {F : Type} [Field F] [LinearOrder F] [FloorRing F] (vs : List F) (lo hi : Int) :
    boundsLoop vs lo hi =
      if ∀ v ∈ vs, -2147483648 ≤ truncate v ∧ truncate v ≤ 2147483647 then .ok (Foundation.boundsLoop vs lo hi) else .ub := by
  induction vs generalizing lo hi with
  | nil => rw [if_pos (by simp)]; rfl
  | cons v vs ih =>
    unfold boundsLoop castInt
    by_cases h : -2147483648 ≤ truncate v ∧ truncate v ≤ 2147483647
    · rw [int_ok h]
      simp only [Res.bind_ok]
      rw [ih]
      simp only [List.forall_mem_cons, h, true_and, Foundation.boundsLoop]
    · rw [int_ub h, if_neg]
      · rfl
      · intro h'
        exact h (h' v List.mem_cons_self)

/-- **C74** (bounds).  The bounds of a shape and the size of its foundation in one direction are computed without overflow exactly if the
coordinates of all vertices, the bounds and the size fit into 32 bits. -/
theorem C74_bounds {F : Type} [Field F] [LinearOrder F] [FloorRing F] (vs : List F) :
    let b := findBounds 2147483647 (-2147483648) vs
    boundsAndSize vs =
      if (∀ v ∈ vs, -2 ^ 31 ≤ truncate v ∧ truncate v < 2 ^ 31) ∧ -2 ^ 31 ≤ b.1 ∧ b.2 < 2 ^ 31 ∧ b.2 - b.1 + 1 < 2 ^ 31 ∧
        b.1 < 2 ^ 31 ∧ -2 ^ 31 ≤ b.2 ∧ -2 ^ 31 ≤ b.2 - b.1
      then .ok (b, b.2 - b.1 + 1) else .ub := by
  intro b
  have e1 : b.1 = (Foundation.boundsLoop vs 2147483647 (-2147483648)).1 - 1 := rfl
  have e2 : b.2 = (Foundation.boundsLoop vs 2147483647 (-2147483648)).2 + 1 := rfl
  have hv : (∀ v ∈ vs, -2 ^ 31 ≤ truncate v ∧ truncate v < 2 ^ 31) ↔
      ∀ v ∈ vs, -2147483648 ≤ truncate v ∧ truncate v ≤ 2147483647 := by
    constructor <;> intro h v hv <;> have := h v hv <;> omega
  unfold boundsAndSize
  rw [boundsLoop_eq]
  by_cases h : ∀ v ∈ vs, -2147483648 ≤ truncate v ∧ truncate v ≤ 2147483647
  · rw [if_pos h]
    simp only [Res.bind_ok, ← e1, ← e2, hv]
    by_cases h1 : -2147483648 ≤ b.1 ∧ b.1 ≤ 2147483647
    · rw [int_ok h1]
      simp only [Res.bind_ok]
      by_cases h2 : -2147483648 ≤ b.2 ∧ b.2 ≤ 2147483647
      · rw [int_ok h2]
        simp only [Res.bind_ok]
        by_cases h3 : -2147483648 ≤ b.2 - b.1 ∧ b.2 - b.1 ≤ 2147483647
        · rw [int_ok h3]
          simp only [Res.bind_ok]
          by_cases h4 : b.2 - b.1 + 1 ≤ 2147483647
          · rw [int_ok (by omega), if_pos (by refine ⟨h, ?_⟩; omega)]
            rfl
          · rw [int_ub (by omega), if_neg (by rintro ⟨-, h'⟩; omega)]
            rfl
        · rw [int_ub h3, if_neg (by rintro ⟨-, h'⟩; omega)]
          rfl
      · rw [int_ub h2, if_neg (by rintro ⟨-, h'⟩; omega)]
        rfl
    · rw [int_ub h1, if_neg (by rintro ⟨-, h'⟩; omega)]
      rfl
  · rw [if_neg h, if_neg (by rintro ⟨h', -⟩; exact h (hv.1 h'))]
    rfl

/-! ## Final numbering -/

/-- All numbers fit. -/
def Fits (c : List Nat) : Prop := ∀ x ∈ c, x < 2 ^ 31

instance (c : List Nat) : Decidable (Fits c) := by unfold Fits; infer_instance

theorem finBlock_ok (valid : List Bool) {i k : Nat} {st : FinState} (h : i + k ≤ maxInt) (ht : st.total ≤ i) (hh : st.here ≤ i) :
    finBlock valid i k st = .ok (Foundation.finBlock valid i k st) ∧ (Foundation.finBlock valid i k st).total ≤ i + k ∧
      (Foundation.finBlock valid i k st).here ≤ st.here + k := by
  induction k generalizing i st with
  | zero => exact ⟨rfl, by simpa [Foundation.finBlock] using ht, by simp [Foundation.finBlock]⟩
  | succ k ih =>
    unfold finBlock Foundation.finBlock
    by_cases hv : valid.getD i false = true
    · rw [if_pos hv, if_pos hv, nat_ok (by omega), nat_ok (by omega), nat_ok (by omega)]
      simp only [Res.bind_ok]
      obtain ⟨h1, h2, h3⟩ := ih (i := i + 1) (st := ⟨st.indices ++ [(st.total : Int)], st.total + 1, st.here + 1⟩) (by omega)
        (by simpa using ht) (by simpa using hh)
      refine ⟨h1, by omega, ?_⟩
      simp only at h3
      omega
    · rw [if_neg hv, if_neg hv, nat_ok (by omega)]
      simp only [Res.bind_ok]
      obtain ⟨h1, h2, h3⟩ := ih (i := i + 1) (st := ⟨st.indices ++ [-1], st.total, st.here⟩) (by omega)
        (by show st.total ≤ i + 1; omega) (by show st.here ≤ i + 1; omega)
      refine ⟨h1, by omega, ?_⟩
      simp only at h3
      omega

theorem modify_eq_set (c : List Nat) (i n : Nat) : c.modify i (· + n) = c.set i (c.getD i 0 + n) := by
  apply List.ext_getElem?
  intro k
  rw [List.getElem?_modify, List.getElem?_set]
  by_cases hk : i = k
  · subst hk
    by_cases hl : i < c.length
    · simp [hl]
    · simp [hl]
  · simp [hk]

/-- Counts only grow. -/
theorem addCounts_mono (hs : List CellHopping) (n : Nat) (c : List Nat) (i x : Nat) (hx : c[i]? = some x) :
    ∃ y, x ≤ y ∧ (Foundation.addCounts c hs n)[i]? = some y := by
  induction hs generalizing c x with
  | nil => exact ⟨x, le_refl _, hx⟩
  | cons h hs ih =>
    unfold Foundation.addCounts
    rw [List.foldl_cons]
    by_cases hc : h.isConjugate = true
    · rw [if_pos hc]; exact ih c x hx
    · rw [if_neg hc]
      by_cases hi : h.familyId = i
      · obtain ⟨y, hy, hy'⟩ := ih (c.modify h.familyId (· + n)) (x + n) (by rw [List.getElem?_modify, hx]; simp [hi])
        exact ⟨y, by omega, hy'⟩
      · exact ih _ x (by rw [List.getElem?_modify, hx]; simp [hi])

theorem Fits.of_addCounts {hs : List CellHopping} {n : Nat} {c : List Nat} (h : Fits (Foundation.addCounts c hs n)) : Fits c := by
  intro x hx
  obtain ⟨i, hi⟩ := List.mem_iff_getElem?.1 hx
  obtain ⟨y, hy, hy'⟩ := addCounts_mono hs n c i x hi
  exact lt_of_le_of_lt hy (h y (List.mem_of_getElem? hy'))

theorem addCounts_eq (hs : List CellHopping) {n : Nat} (hn : n ≤ maxInt) {c : List Nat} (hc : Fits c) :
    addCounts c hs n = if Fits (Foundation.addCounts c hs n) then .ok (Foundation.addCounts c hs n) else .ub := by
  induction hs generalizing c with
  | nil => exact (if_pos (show Fits (Foundation.addCounts c [] n) from hc)).symm
  | cons h hs ih =>
    unfold addCounts Foundation.addCounts
    rw [List.foldlM_cons, List.foldl_cons]
    by_cases hj : h.isConjugate = true
    · rw [if_pos hj, if_pos hj]
      exact ih hc
    · rw [if_neg hj, if_neg hj]
      by_cases hx : c.getD h.familyId 0 + n ≤ maxInt
      · rw [nat_ok hx]
        simp only [Res.bind_ok]
        rw [← modify_eq_set]
        refine ih ?_
        rw [modify_eq_set]
        intro y hy
        rcases List.mem_or_eq_of_mem_set hy with hy | rfl
        · exact hc y hy
        · unfold maxInt at hx; omega
      · rw [nat_ub hx, if_neg]
        · rfl
        · intro hf
          have hm : Fits (c.modify h.familyId (· + n)) := Fits.of_addCounts hf
          rw [modify_eq_set] at hm
          by_cases hl : h.familyId < c.length
          · have := hm _ (List.mem_set hl _)
            unfold maxInt at hx; omega
          · rw [List.getD_eq_default _ _ (by omega)] at hx
            omega

/-- The loop over the sublattices only increases the counts. -/
theorem finLoop_mono (valid : List Bool) (block n : Nat) (cell : List CellSite) (f : Finalized)
    (h : Fits (Foundation.finLoop valid block n cell f).hoppingCounts) : Fits f.hoppingCounts := by
  induction cell generalizing n f with
  | nil => exact h
  | cons s rest ih => exact Fits.of_addCounts (ih _ _ h)

theorem finLoop_eq' (valid : List Bool) {block : Nat} (hb : 0 < block) (n : Nat) (cell : List CellSite) (f : Finalized)
    (hn : n * block ≤ maxInt) (ht : f.total ≤ n * block) (hf : Fits f.hoppingCounts) :
    finLoop valid block n cell f =
      if (n + cell.length) * block ≤ maxInt ∧ Fits (Foundation.finLoop valid block n cell f).hoppingCounts
      then .ok (Foundation.finLoop valid block n cell f) else .ub := by
  induction cell generalizing n f with
  | nil => rw [if_pos ⟨hn, hf⟩]; rfl
  | cons s rest ih =>
    unfold finLoop
    rw [nat_ok hn]
    simp only [Res.bind_ok]
    have hle : (n + 1) * block ≤ (n + (s :: rest).length) * block :=
      Nat.mul_le_mul_right _ (by simp)
    by_cases h1 : (n + 1) * block ≤ maxInt
    · have h2 : n + 1 ≤ maxInt := le_trans (Nat.le_mul_of_pos_right _ hb) h1
      rw [nat_ok h2]
      simp only [Res.bind_ok]
      rw [nat_ok h1]
      simp only [Res.bind_ok]
      have e : (n + 1) * block - n * block = block := by rw [Nat.add_mul]; omega
      have e' : n * block + block = (n + 1) * block := by ring
      obtain ⟨g1, g2, g3⟩ := finBlock_ok valid (i := n * block) (k := block) (st := ⟨f.indices, f.total, 0⟩) (by omega) ht (Nat.zero_le _)
      dsimp only at g3
      rw [e'] at g2
      rw [e, g1]
      simp only [Res.bind_ok]
      rw [addCounts_eq s.hoppings (le_trans g3 (by omega)) hf]
      by_cases h3 : Fits (Foundation.addCounts f.hoppingCounts s.hoppings
          (Foundation.finBlock valid (n * block) block ⟨f.indices, f.total, 0⟩).here)
      · rw [if_pos h3]
        simp only [Res.bind_ok]
        rw [ih (n + 1) _ h1 g2 h3]
        rw [show n + 1 + rest.length = n + (s :: rest).length by simp; omega]
        rfl
      · rw [if_neg h3, if_neg]
        · rfl
        · rintro ⟨-, h4⟩
          exact h3 (finLoop_mono valid block (n + 1) rest _ h4)
    · rw [if_neg (by rintro ⟨h2, -⟩; exact h1 (le_trans hle h2))]
      by_cases h2 : n + 1 ≤ maxInt
      · rw [nat_ok h2]
        simp only [Res.bind_ok]
        rw [nat_ub h1]
        rfl
      · rw [nat_ub h2]
        rfl

/-- **C74** (numbering).  The final indices of the sites are computed without overflow exactly if the foundation has less than 2^31 sites and
no family has 2^31 hoppings (counted as in the reservation of memory); then they are those of unbounded integers. -/
theorem C74_numbering (d : Dims) (cell : List CellSite) (nhop : Nat) (valid : List Bool) (hx : 0 < d.sx) (hy : 0 < d.sy) (hz : 0 < d.sz)
    (hc : cell ≠ []) :
    finalize d cell nhop valid =
      if d.sx * d.sy * d.sz * cell.length < 2 ^ 31 ∧ ∀ x ∈ (Foundation.finalize d cell nhop valid).hoppingCounts, x < 2 ^ 31
      then .ok (Foundation.finalize d cell nhop valid) else .ub := by
  have hlen : 0 < cell.length := List.length_pos_of_ne_nil hc
  have hp : 0 < d.prod := by unfold Dims.prod; positivity
  have hiff : d.sx * d.sy * d.sz * cell.length < 2 ^ 31 ↔ (0 + cell.length) * d.prod ≤ maxInt := by
    rw [Nat.zero_add, Nat.mul_comm cell.length]
    unfold Dims.prod maxInt
    omega
  unfold finalize
  rw [prod_eq hx]
  by_cases h : d.prod ≤ maxInt
  · rw [if_pos h]
    simp only [Res.bind_ok]
    rw [finLoop_eq' valid hp 0 cell ⟨[], List.replicate nhop 0, 0⟩ (by simp) (by simp) (by
      intro x hx
      rw [List.eq_of_mem_replicate hx]
      decide)]
    simp only [hiff]
    rfl
  · rw [if_neg h, if_neg]
    · rfl
    · rintro ⟨h', -⟩
      rw [hiff, Nat.zero_add] at h'
      exact h (le_trans (Nat.le_mul_of_pos_left _ hlen) h')

/-- The limit is that of the foundation: a shape that contains no site at all overflows if its bounding box has 2^31 sites. -/
theorem C74_foundation_witness : finalize ⟨65536, 32768, 1⟩ [⟨1, 0, 0, []⟩] 0 [] = .ub := by
  rw [C74_numbering _ _ _ _ (by decide) (by decide) (by decide) (by simp), if_neg]
  rintro ⟨h, -⟩
  simp at h

/-! ## Indices of the Hamiltonian -/

theorem itersFrom_eq (t : Table) (a b : Nat) :
    itersFrom a b t =
      if ∀ e ∈ t, e.numSites * e.numOrb ≤ maxInt then .ok (Sublat.itersFrom a b t) else .ub := by
  induction t generalizing a b with
  | nil => rw [if_pos (by simp)]; rfl
  | cons e t ih =>
    unfold itersFrom
    by_cases h : e.numSites * e.numOrb ≤ maxInt
    · rw [nat_ok h]
      simp only [Res.bind_ok]
      rw [ih]
      simp only [List.forall_mem_cons, h, true_and, Sublat.itersFrom]
      split <;> rfl
    · rw [nat_ub h, if_neg]
      · rfl
      · intro h'
        exact h (h' e List.mem_cons_self)

theorem itersFrom_elem {t : Table} {a b : Nat} {sub : It} (h : sub ∈ Sublat.itersFrom a b t) : sub.elem ∈ t := by
  induction t generalizing a b with
  | nil => simp [Sublat.itersFrom] at h
  | cons e t ih =>
    rcases List.mem_cons.1 h with rfl | h
    · exact List.mem_cons_self
    · exact List.mem_cons_of_mem _ (ih h)

theorem size_foldlM (l : List It) (h : ∀ sub ∈ l, sub.elem.numSites * sub.elem.numOrb ≤ maxInt) (n : Nat) :
    l.foldlM (fun r sub => do
      let h ← nat (sub.elem.numSites * sub.elem.numOrb)
      Res.ok (r + h)) n = Res.ok (l.foldl (fun r sub => r + sub.hamSize) n) := by
  induction l generalizing n with
  | nil => rfl
  | cons sub l ih =>
    rw [List.foldlM_cons, List.foldl_cons, nat_ok (h sub List.mem_cons_self)]
    simp only [Res.bind_ok]
    exact ih (fun s hs => h s (List.mem_cons_of_mem _ hs)) _

/-- The orbitals of one sublattice are not more than those of all sites. -/
theorem block_le (t : Table) (e : Elem) (he : e ∈ t) : e.numSites * e.numOrb ≤ (tableNorbs t).sum := by
  rw [sum_tableNorbs]
  exact List.single_le_sum (fun x _ => Nat.zero_le x) _ (List.mem_map.2 ⟨e, he, rfl⟩)

/-- **C74** (size).  The size of the Hamiltonian is computed without overflow exactly if each sublattice alone has less than 2^31 orbitals; then
it is the number of all orbitals, which may be bigger. -/
theorem C74_size (t : Table) :
    hamiltonianSize t = if ∀ e ∈ t, e.numSites * e.numOrb < 2 ^ 31 then .ok (tableNorbs t).sum else .ub := by
  have hiff : (∀ e ∈ t, e.numSites * e.numOrb < 2 ^ 31) ↔ ∀ e ∈ t, e.numSites * e.numOrb ≤ maxInt := by
    unfold maxInt
    constructor <;> intro h e he <;> have := h e he <;> omega
  simp only [hiff]
  unfold hamiltonianSize
  rw [itersFrom_eq]
  by_cases h : ∀ e ∈ t, e.numSites * e.numOrb ≤ maxInt
  · rw [if_pos h, if_pos h]
    simp only [Res.bind_ok]
    rw [size_foldlM _ (fun sub hs => h _ (itersFrom_elem hs))]
    rw [← Sublat.hamiltonianSize_eq]
    rfl
  · rw [if_neg h, if_neg h]
    rfl

theorem narrow_of {n : Nat} (h : n < 2 ^ 31) : narrow n = n := by
  unfold narrow
  rw [Int.bmod_eq_of_le] <;> omega

theorem mapM_ok {α β : Type} (f : α → Res β) (g : α → β) (l : List α) (h : ∀ x ∈ l, f x = .ok (g x)) : l.mapM f = Res.ok (l.map g) := by
  have hl : ∀ (l : List α) (acc : List β), (∀ x ∈ l, f x = .ok (g x)) → List.mapM.loop f l acc = Res.ok (acc.reverse ++ l.map g) := by
    intro l
    induction l with
    | nil => intro acc _; simp [List.mapM.loop]
    | cons x l ih =>
      intro acc h
      unfold List.mapM.loop
      rw [h x List.mem_cons_self]
      simp only [Res.bind_ok]
      rw [ih _ (fun y hy => h y (List.mem_cons_of_mem _ hy))]
      simp
  unfold List.mapM
  rw [hl l [] h]
  rfl

theorem firstRow_add_lt (L : List Nat) (i n : Nat) (h : L[i]? = some n) : Spec.firstRow L i + n ≤ L.sum := by
  have e : (L.take (i + 1)).sum = Spec.firstRow L i + n := by
    rw [List.take_add_one, h]
    simp [Spec.firstRow]
  rw [← e, ← List.sum_take_add_sum_drop L (i + 1)]
  omega

/-- **C74** (indices of a site).  If the Hamiltonian has less than 2^31 rows, every site gets the indices that follow those of the sites
before it. -/
theorem C74_site_indices (t : Table) (h : (tableNorbs t).sum < 2 ^ 31) (i n : Nat) (hi : (tableNorbs t)[i]? = some n) :
    toHamiltonianIndices t i = .ok ((List.range n).map fun k => ((Spec.firstRow (tableNorbs t) i + k : Nat) : Int)) := by
  have hlt := (List.getElem?_eq_some_iff.1 hi).1
  obtain ⟨sub, f1, f2, f3⟩ := find_site t 0 0 i (Nat.zero_le _) (by omega)
  rw [Nat.sub_zero] at f2 f3
  rw [hi, Option.some.injEq] at f2
  have hle := firstRow_add_lt _ _ _ hi
  unfold toHamiltonianIndices
  rw [itersFrom_eq, if_pos (fun e he => by have := block_le t e he; unfold maxInt; omega)]
  simp only [Res.bind_ok, f1]
  rw [f3, Nat.zero_add, ← f2, show ((tableNorbs t).take i).sum = Spec.firstRow (tableNorbs t) i from rfl,
    narrow_of (by omega)]
  refine mapM_ok _ _ _ ?_
  intro k hk
  rw [List.mem_range] at hk
  rw [int_ok (by omega)]
  push_cast
  rfl

/-- Beyond the limit there is no error: the size of this Hamiltonian is right, but a site in it gets negative indices. -/
theorem C74_narrow_witness :
    hamiltonianSize [⟨0, 2 ^ 30, 1⟩, ⟨1, 2 ^ 30 - 1, 2⟩] = .ok (3 * 2 ^ 30 - 2) ∧
      toHamiltonianIndices [⟨0, 2 ^ 30, 1⟩, ⟨1, 2 ^ 30 - 1, 2⟩] (2 ^ 30 + 2 ^ 29) = .ok [-2 ^ 31, -2 ^ 31 + 1] := by
  constructor <;> decide +kernel

/-- A sublattice of 2^30 sites with two orbitals overflows. -/
theorem C74_orbitals_witness : hamiltonianSize [⟨0, 2 ^ 30, 2⟩] = .ub := by
  rw [C74_size, if_neg]
  simp

theorem hamIndex_ok {ham i s0 s norb : Nat} (h0 : s0 ≤ s) (hn : 0 < norb) (h : ham + i + (s - s0) * norb < 2 ^ 31) :
    hamIndex ham i s s0 norb = .ok ((ham + i + (s - s0) * norb : Nat) : Int) := by
  have e : ((s : Int) - s0) = ((s - s0 : Nat) : Int) := by omega
  have h1 : s - s0 ≤ (s - s0) * norb := Nat.le_mul_of_pos_right _ hn
  unfold hamIndex
  rw [e, int_ok (by omega)]
  simp only [Res.bind_ok]
  rw [← Nat.cast_mul, int_ok (by omega)]
  simp only [Res.bind_ok]
  rw [← Nat.cast_add, int_ok (by omega)]

/-- **C74** (indices of a hopping).  If the Hamiltonian has less than 2^31 rows, all intermediate results of the translation of a hopping fit, and
the element of the orbitals `i` and `j` arrives in the row and column of these orbitals. -/
theorem C74_hopping_indices {C : Type} (t : Table) (hs : (t.map (·.numOrb)).Pairwise (· ≤ ·)) (h : (tableNorbs t).sum < 2 ^ 31)
    (m : Mat C) (hr : 0 < m.rows) (hc : 0 < m.cols) (c : Hopping.COO) (hf : Hamiltonian.Fits (tableNorbs t) m c) :
    ∃ tr, Hamiltonian.translator t m = .ok tr ∧ ∀ i < m.rows, ∀ j < m.cols,
      hamIndices tr i j c =
        .ok (((Spec.firstRow (tableNorbs t) c.row + i : Nat) : Int), ((Spec.firstRow (tableNorbs t) c.col + j : Nat) : Int)) := by
  obtain ⟨hf1, hf2⟩ := hf
  obtain ⟨sr, hr', a1, a2, a3⟩ := Hamiltonian.start_spec t hs m.rows hr (List.mem_of_getElem? hf1)
  obtain ⟨sc, hc', b1, b2, b3⟩ := Hamiltonian.start_spec t hs m.cols hc (List.mem_of_getElem? hf2)
  refine ⟨⟨m.rows, m.cols, sr, sc, hr', hc'⟩, ?_, ?_⟩
  · unfold Hamiltonian.translator
    simp only [a1, b1, a2, b2, Res.bind_ok, Res.pure_eq]
  · intro i hi j hj
    obtain ⟨p1, p2⟩ := a3 _ hf1
    obtain ⟨q1, q2⟩ := b3 _ hf2
    have l1 := firstRow_add_lt _ _ _ hf1
    have l2 := firstRow_add_lt _ _ _ hf2
    unfold hamIndices
    dsimp only
    rw [hamIndex_ok p1 hr (by omega)]
    simp only [Res.bind_ok]
    rw [hamIndex_ok q1 hc (by omega)]
    simp only [Res.bind_ok, Res.pure_eq, ← p2, ← q2, Nat.add_right_comm]

/-! ## Examples -/

/-- The hypotheses of `C74_positions` and `C74_numbering` hold for graphene-like cells in a box. -/
example :
    numSites ⟨1000, 1000, 1⟩ 2 = .ok 2000000 ∧
      (finalize ⟨2, 1, 1⟩ [⟨1, 0, 0, [⟨Index3.zero, 1, 0, false⟩]⟩, ⟨1, 1, 1, [⟨Index3.zero, 0, 0, true⟩]⟩] 1 [true, true, false, true]).bind
        (fun f => .ok (f.indices, f.hoppingCounts, f.total)) = .ok ([0, 1, -1, 2], [2], 3) := by
  constructor <;> decide +kernel

example : (tableNorbs [⟨0, 2, 1⟩, ⟨1, 1, 2⟩]).sum < 2 ^ 31 ∧ toHamiltonianIndices [⟨0, 2, 1⟩, ⟨1, 1, 2⟩] 2 = .ok [2, 3] := by
  constructor <;> decide +kernel

example : Hamiltonian.Fits (C := Int) (tableNorbs [⟨0, 2, 1⟩, ⟨1, 1, 2⟩]) ⟨1, 2, fun _ _ => 1⟩ ⟨1, 2⟩ := by
  constructor <;> decide +kernel

end Verif.Machine
