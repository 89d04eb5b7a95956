import Verif.Hamiltonian.Hermitian

/-!
# The index translation and the buffered hopping loop
-/

namespace Verif.Hamiltonian

open Verif.Sublat (Table It iters itersFrom tableNorbs)
open Verif.Sublat.Spec (firstRow)
open Verif.Hopping (COO HoppingBlocks Csr csrInsert overwrite)
open Verif.Lattice (Registry)

variable {C K P : Type}

theorem take_const_sum (L : List Nat) (r k : Nat) (h : ∀ i, i < k → L[i]? = some r) :
    (L.take k).sum = k * r := by
  induction k generalizing L with
  | zero => simp
  | succ k ih =>
    have h0 := h 0 (by omega)
    cases L with
    | nil => simp at h0
    | cons a L =>
      simp only [List.getElem?_cons_zero, Option.some.injEq] at h0
      subst h0
      rw [List.take_succ_cons, List.sum_cons, ih L (fun i hi => by
        have := h (i + 1) (by omega); simpa using this), Nat.succ_mul, Nat.add_comm]

/-- In a sorted list of orbital counts, the sites with `r` orbitals are consecutive. -/
theorem sorted_run (L : List Nat) (hs : L.Pairwise (· ≤ ·)) (k r : Nat) (hk : L[k]? = some r) :
    L.countP (fun a => decide (a < r)) ≤ k ∧ L[L.countP (fun a => decide (a < r))]? = some r ∧
      firstRow L k = firstRow L (L.countP (fun a => decide (a < r)))
        + (k - L.countP (fun a => decide (a < r))) * r := by
  induction L generalizing k with
  | nil => simp at hk
  | cons a L ih =>
    rw [List.pairwise_cons] at hs
    by_cases ha : a < r
    · cases k with
      | zero => simp at hk; omega
      | succ k =>
        obtain ⟨h1, h2, h3⟩ := ih hs.2 k (by simpa using hk)
        rw [List.countP_cons_of_pos (by simpa using ha)]
        refine ⟨by omega, by simpa using h2, ?_⟩
        unfold firstRow at h3 ⊢
        rw [List.take_succ_cons, List.take_succ_cons, List.sum_cons, List.sum_cons, h3,
          Nat.add_assoc, Nat.succ_sub_succ]
    · have hz : (a :: L).countP (fun a => decide (a < r)) = 0 := by
        rw [List.countP_eq_zero]
        intro x hx
        rcases List.mem_cons.1 hx with rfl | hx
        · simpa using ha
        · have := hs.1 x hx
          simp; omega
      have hall : ∀ i, i ≤ k → (a :: L)[i]? = some r := by
        intro i hi
        have hlt : k < (a :: L).length := (List.getElem?_eq_some_iff.1 hk).1
        have hil : i < (a :: L).length := by omega
        rw [List.getElem?_eq_getElem hil]
        have hge : r ≤ (a :: L)[i] := by
          have := List.getElem_mem hil
          rcases List.mem_cons.1 this with h | h
          · omega
          · have := hs.1 _ h; omega
        have hle : (a :: L)[i] ≤ (a :: L)[k] := by
          rcases Nat.lt_or_ge i k with h | h
          · exact List.pairwise_iff_getElem.1 (List.pairwise_cons.2 hs) i k hil hlt h
          · have : i = k := by omega
            subst this; exact Nat.le_refl _
        have hkr : (a :: L)[k] = r := (List.getElem?_eq_some_iff.1 hk).2
        rw [Option.some.injEq]; omega
      rw [hz]
      refine ⟨Nat.zero_le _, hall 0 (Nat.zero_le _), ?_⟩
      unfold firstRow
      rw [take_const_sum _ r k fun i hi => hall i (by omega)]
      simp

theorem start_find (t : Table) (hs : (t.map (·.numOrb)).Pairwise (· ≤ ·)) (r : Nat)
    (hr : r ∈ tableNorbs t) (a b : Nat) :
    ∃ sub, (itersFrom a b t).find? (fun sub => sub.elem.numOrb == r) = some sub ∧
      sub.sysStart = a + (tableNorbs t).countP (fun x => decide (x < r)) := by
  induction t generalizing a b with
  | nil => simp [tableNorbs] at hr
  | cons e t ih =>
    rw [List.map_cons, List.pairwise_cons] at hs
    have hn : tableNorbs (e :: t) = List.replicate e.numSites e.numOrb ++ tableNorbs t := by
      simp [tableNorbs]
    unfold itersFrom
    by_cases he : e.numOrb = r
    · refine ⟨⟨e, a, b⟩, by rw [List.find?_cons_of_pos (by simpa using he)], ?_⟩
      have hz : (tableNorbs (e :: t)).countP (fun x => decide (x < r)) = 0 := by
        rw [List.countP_eq_zero]
        intro x hx
        rw [hn] at hx
        rcases List.mem_append.1 hx with hx | hx
        · rw [List.eq_of_mem_replicate hx]; simp; omega
        · obtain ⟨f, hf, hx⟩ := List.mem_flatMap.1 hx
          rw [List.eq_of_mem_replicate hx]
          have := hs.1 _ (List.mem_map.2 ⟨f, hf, rfl⟩)
          simp; omega
      rw [hz]; rfl
    · rw [hn] at hr
      have hr' : r ∈ tableNorbs t := by
        rcases List.mem_append.1 hr with h | h
        · exact absurd (List.eq_of_mem_replicate h).symm he
        · exact h
      obtain ⟨sub, h1, h2⟩ := ih hs.2 hr' (a + e.numSites) (b + e.numSites * e.numOrb)
      refine ⟨sub, by rw [List.find?_cons_of_neg (by simpa using he)]; exact h1, ?_⟩
      have hlt : e.numOrb < r := by
        obtain ⟨f, hf, hx⟩ := List.mem_flatMap.1 hr'
        have h3 := List.eq_of_mem_replicate hx
        have := hs.1 _ (List.mem_map.2 ⟨f, hf, rfl⟩)
        omega
      rw [h2, hn, List.countP_append, List.countP_replicate, if_pos (by simpa using hlt),
        Nat.add_assoc]

theorem tableNorbs_sorted (t : Table) (hs : (t.map (·.numOrb)).Pairwise (· ≤ ·)) :
    (tableNorbs t).Pairwise (· ≤ ·) := by
  induction t with
  | nil => simp [tableNorbs]
  | cons e t ih =>
    rw [List.map_cons, List.pairwise_cons] at hs
    have hn : tableNorbs (e :: t) = List.replicate e.numSites e.numOrb ++ tableNorbs t := by
      simp [tableNorbs]
    rw [hn, List.pairwise_append]
    refine ⟨List.pairwise_replicate.2 (.inr (Nat.le_refl _)), ih hs.2, ?_⟩
    intro x hx y hy
    obtain ⟨f, hf, hy⟩ := List.mem_flatMap.1 hy
    rw [List.eq_of_mem_replicate hx, List.eq_of_mem_replicate hy]
    exact hs.1 _ (List.mem_map.2 ⟨f, hf, rfl⟩)

/-- The start of the sites with `r` orbitals, in system and Hamiltonian numbering. -/
theorem start_spec (t : Table) (hs : (t.map (·.numOrb)).Pairwise (· ≤ ·)) (r : Nat) (hr0 : 0 < r)
    (hr : r ∈ tableNorbs t) :
    ∃ sr hr', Sublat.startIndex t r = .ok sr ∧ firstIndex t sr = .ok hr' ∧
      ∀ k, (tableNorbs t)[k]? = some r → sr ≤ k ∧ hr' + (k - sr) * r = firstRow (tableNorbs t) k := by
  obtain ⟨sub, h1, h2⟩ := start_find t hs r hr 0 0
  rw [Nat.zero_add] at h2
  obtain ⟨k0, hk0⟩ := List.mem_iff_getElem?.1 hr
  obtain ⟨g1, g2, -⟩ := sorted_run _ (tableNorbs_sorted t hs) k0 r hk0
  refine ⟨(tableNorbs t).countP (fun x => decide (x < r)),
    firstRow (tableNorbs t) ((tableNorbs t).countP (fun x => decide (x < r))), ?_, ?_, ?_⟩
  · unfold Sublat.startIndex iters
    rw [h1]
    simp only [h2]
  · have hlt := (List.getElem?_eq_some_iff.1 g2).1
    obtain ⟨sub', f1, f2, f3⟩ := Sublat.find_site t 0 0 _ (Nat.zero_le _) (by rw [Nat.zero_add]; exact hlt)
    rw [Nat.sub_zero, g2, Option.some.injEq] at f2
    unfold firstIndex Sublat.toHamiltonianIndices iters
    rw [f1]
    simp only [Res.bind_ok]
    obtain ⟨q, hq⟩ : ∃ q, sub'.elem.numOrb = q + 1 := ⟨sub'.elem.numOrb - 1, by omega⟩
    rw [hq, List.range_succ_eq_map]
    simp only [List.map_cons, Nat.add_zero, Res.ok.injEq]
    rw [← hq, f3]
    simp [firstRow]
  · intro k hk
    obtain ⟨e1, -, e3⟩ := sorted_run _ (tableNorbs_sorted t hs) k r hk
    exact ⟨e1, e3.symm⟩

/-- Specification: the Hamiltonian position of the orbital pair `(i, j)` of a site pair. -/
def place (norbs : List Nat) (c : COO) (i j : Nat) : Int × Int :=
  (((firstRow norbs c.row + i : Nat) : Int), ((firstRow norbs c.col + j : Nat) : Int))

/-- The two ends of a hopping have as many orbitals as its matrix has rows and columns. -/
def Fits (norbs : List Nat) (m : Mat C) (c : COO) : Prop :=
  norbs[c.row]? = some m.rows ∧ norbs[c.col]? = some m.cols

/-- The index translator of a non-empty family of fitting hoppings. -/
theorem translator_spec (t : Table) (hs : (t.map (·.numOrb)).Pairwise (· ≤ ·)) (m : Mat C)
    (hr : 0 < m.rows) (hc : 0 < m.cols) (coos : List COO) (hne : coos ≠ [])
    (hf : ∀ c ∈ coos, Fits (tableNorbs t) m c) :
    ∃ tr, translator t m = .ok tr ∧ tr.rows = m.rows ∧ tr.cols = m.cols ∧
      ∀ c, Fits (tableNorbs t) m c → ∀ i j : Nat,
        ((tr.hamRow + i : Int) + ((c.row : Int) - tr.sysRow) * tr.rows,
          (tr.hamCol + j : Int) + ((c.col : Int) - tr.sysCol) * tr.cols) = place (tableNorbs t) c i j := by
  obtain ⟨c0, l, rfl⟩ := List.exists_cons_of_ne_nil hne
  obtain ⟨hf1, hf2⟩ := hf c0 List.mem_cons_self
  obtain ⟨sr, hr', a1, a2, a3⟩ := start_spec t hs m.rows hr (List.mem_of_getElem? hf1)
  obtain ⟨sc, hc', b1, b2, b3⟩ := start_spec t hs m.cols hc (List.mem_of_getElem? hf2)
  refine ⟨⟨m.rows, m.cols, sr, sc, hr', hc'⟩, ?_, rfl, rfl, ?_⟩
  · unfold translator
    simp only [a1, b1, a2, b2, Res.bind_ok, Res.pure_eq]
  · rintro c ⟨h1, h2⟩ i j
    obtain ⟨p1, p2⟩ := a3 _ h1
    obtain ⟨q1, q2⟩ := b3 _ h2
    unfold place
    rw [← p2, ← q2]
    simp only [Nat.cast_add, Nat.cast_mul, Nat.cast_sub p1, Nat.cast_sub q1]
    rw [Prod.mk.injEq]
    constructor <;> omega

/-! ## Slices -/

theorem sliced_flatten {α : Type} (step : Nat) (hstep : 0 < step) (fuel : Nat) (xs : List α)
    (h : xs.length ≤ fuel) : (sliced step fuel xs).flatten = xs := by
  induction fuel generalizing xs with
  | zero =>
    have : xs = [] := by simpa using h
    subst this; rfl
  | succ fuel ih =>
    cases xs with
    | nil => rfl
    | cons x xs =>
      unfold sliced
      rw [List.flatten_cons, ih _ (by rw [List.length_drop]; simp at h ⊢; omega), List.take_append_drop]

/-! ## Element-wise modifiers -/

/-- An array of hoppings: the matrix of each one with the positions of its ends. -/
abbrev Elem (K P : Type) := (Nat → Nat → K) × P × P

/-- Specification: a hopping modifier that acts on each hopping separately, as the function `g`
does: on an array of `r`×`c` matrices the result for one hopping depends on its own energy, its own
end positions and the family name only. -/
def Elementwise (r c : Nat) (f : HoppingModifier K P)
    (g : String → (Nat → Nat → K) → P → P → Nat → Nat → K) : Prop :=
  ∀ (name : String) (xs : List (Elem K P)),
    f (layout r c (xs.map (·.1))) (xs.map (·.2.1)) (xs.map (·.2.2)) name
      = .ok (layout r c (xs.map fun x => g name x.1 x.2.1 x.2.2))

/-- A chain of modifiers with the functions they apply to each element. -/
inductive Chain (r c : Nat) : List (HoppingModifier K P) →
    List (String → (Nat → Nat → K) → P → P → Nat → Nat → K) → Prop
  | nil : Chain r c [] []
  | cons {f g fs gs} : Elementwise r c f g → Chain r c fs gs → Chain r c (f :: fs) (g :: gs)

/-- Specification: the energy of one hopping after all modifiers, applied in order. -/
def finalEnergy (gs : List (String → (Nat → Nat → K) → P → P → Nat → Nat → K)) (name : String)
    (e : Nat → Nat → K) (p1 p2 : P) : Nat → Nat → K :=
  gs.foldl (fun e g => g name e p1 p2) e

theorem overwrite_eq {α : Type} (old new : List α) (h : new.length = old.length) :
    overwrite old new = new := by
  unfold overwrite
  rw [← h, List.take_length, List.drop_of_length_le (by omega), List.append_nil]

theorem runHopping_chain (r c : Nat) (fs : List (HoppingModifier K P))
    (gs : List (String → (Nat → Nat → K) → P → P → Nat → Nat → K)) (h : Chain r c fs gs)
    (name : String) (es : List (Nat → Nat → K)) (p1 p2 : List P) (h1 : p1.length = es.length)
    (h2 : p2.length = es.length) :
    runHopping p1 p2 name fs (layout r c es)
      = .ok (layout r c ((es.zip (p1.zip p2)).map fun x => finalEnergy gs name x.1 x.2.1 x.2.2)) := by
  have hz1 : ∀ es : List (Nat → Nat → K), p1.length = es.length → (es.zip (p1.zip p2)).map (·.1) = es := by
    intro es h1'
    exact List.map_fst_zip (by rw [List.length_zip]; omega)
  have hz2 : ∀ es : List (Nat → Nat → K), p1.length = es.length → (es.zip (p1.zip p2)).map (·.2) = p1.zip p2 := by
    intro es h1'
    exact List.map_snd_zip (by rw [List.length_zip]; omega)
  induction h generalizing es with
  | nil =>
    unfold runHopping
    congr 2
    exact (hz1 es h1).symm
  | @cons f g fs gs hf _ ih =>
    unfold runHopping
    have key := hf name (es.zip (p1.zip p2))
    rw [hz1 es h1] at key
    have e1 : (es.zip (p1.zip p2)).map (fun x => x.2.1) = p1 := by
      have := congrArg (List.map (·.1)) (hz2 es h1)
      rw [List.map_map] at this
      rw [List.map_fst_zip (by omega)] at this
      exact this
    have e2 : (es.zip (p1.zip p2)).map (fun x => x.2.2) = p2 := by
      have := congrArg (List.map (·.2)) (hz2 es h1)
      rw [List.map_map] at this
      rw [List.map_snd_zip (by omega)] at this
      exact this
    rw [e1, e2] at key
    rw [key]
    simp only [Res.bind_ok]
    have hlen : ((es.zip (p1.zip p2)).map fun x => g name x.1 x.2.1 x.2.2).length = es.length := by
      rw [List.length_map, List.length_zip, List.length_zip]; omega
    rw [overwrite_eq _ _ (by rw [length_layout, length_layout, hlen]),
      ih _ (by rw [hlen, h1]) (by rw [hlen, h2])]
    congr 2
    rw [List.zip_map_left]
    have : ∀ (ys : List (Elem K P)), ((ys.zip (ys.map (·.2))).map (Prod.map (fun x => g name x.1 x.2.1 x.2.2) id)).map
        (fun x => finalEnergy gs name x.1 x.2.1 x.2.2)
        = ys.map fun x => finalEnergy (g :: gs) name x.1 x.2.1 x.2.2 := by
      intro ys
      induction ys with
      | nil => rfl
      | cons y ys ihy => simp only [List.map_cons, List.zip_cons_cons, ihy]; rfl
    have h3 := this (es.zip (p1.zip p2))
    rw [hz2 es h1] at h3
    exact h3

end Verif.Hamiltonian
