import Verif.Kpm.ReorderRun
import Verif.Kpm.Spec
import Mathlib.Logic.Equiv.Fintype
import Mathlib.Data.Matrix.Mul

/-!
# The result of `create_reordered` and `create_scaled`
-/

namespace Verif.Kpm

open Verif.Numeric
open Verif.Hopping (Csr)
open Verif.Hamiltonian (insertAt insertAll insertAll_append Call Sorted Stored coeff)

variable {K : Type} {n : Nat}

/-- Specification: `o` is the matrix `(h - b) * invA` with the indices renamed by `σ`. -/
structure Reordered [CommRing K] (h : Csr K) (invA b : K) (first : Fin n) (src dest : List (Fin n)) (o : Optimized K)
    (σ : Equiv.Perm (Fin n)) : Prop where
  sorted : Sorted n o.h2
  coeff_eq : ∀ i j : Fin n, Hamiltonian.coeff o.h2 (σ i) (σ j) = (Hamiltonian.coeff h i j - if i = j then b else 0) * invA
  first_eq : (σ first).val = 0
  map_eq : o.map = List.ofFn fun i => ((σ i).val : Int)
  src_eq : o.src = src.map fun i => (σ i).val
  dest_eq : o.dest = dest.map fun i => (σ i).val
  nonempty : o.slices.data ≠ []
  borders : o.slices.data.Pairwise (· < ·)
  last : border o.slices.data (o.slices.data.length - 1) = n
  /-- Slices are the balls around the first target. -/
  ball : ∀ k (i : Fin n), (σ i).val < border o.slices.data k ↔ Within h first k i
  /-- The offsets are the first slices that contain all sources and all destinations. -/
  srcSlice : o.slices.src < o.slices.data.length ∧ ∀ k, o.slices.src ≤ k ↔ ∀ i ∈ src, (σ i).val < border o.slices.data k
  destSlice : o.slices.dest < o.slices.data.length ∧ ∀ k, o.slices.dest ≤ k ↔ ∀ i ∈ dest, (σ i).val < border o.slices.data k

theorem maxElement_spec (l : List Nat) (h : l ≠ []) : ∃ m, maxElement l = .ok m ∧ m ∈ l ∧ ∀ x ∈ l, x ≤ m := by
  rcases l with _ | ⟨a, l⟩
  · exact absurd rfl h
  · refine ⟨l.foldl max a, rfl, ?_⟩
    clear h
    induction l generalizing a with
    | nil => simp
    | cons c l ih =>
      obtain ⟨h1, h2⟩ := ih (max a c)
      rw [List.foldl_cons]
      refine ⟨?_, ?_⟩
      · rcases List.mem_cons.1 h1 with h1 | h1
        · rw [h1]
          rcases Nat.le_total a c with hac | hac
          · rw [Nat.max_eq_right hac]; simp
          · rw [Nat.max_eq_left hac]; simp
        · exact List.mem_cons_of_mem _ (List.mem_cons_of_mem _ h1)
      · intro x hx
        have h0 := h2 (max a c) List.mem_cons_self
        rcases List.mem_cons.1 hx with rfl | hx
        · omega
        · rcases List.mem_cons.1 hx with rfl | hx
          · omega
          · exact h2 x (List.mem_cons_of_mem _ hx)

theorem findOffset_spec {data idx : List Nat} (hi : idx ≠ []) (hd : data ≠ []) (hm : data.Pairwise (· < ·))
    (hlast : ∀ x ∈ idx, x < border data (data.length - 1)) :
    ∃ k, findOffset data idx = .ok k ∧ k < data.length ∧ ∀ l, k ≤ l ↔ ∀ x ∈ idx, x < border data l := by
  obtain ⟨m, e, hmem, hmax⟩ := maxElement_spec idx hi
  have hl : 0 < data.length := List.length_pos_of_ne_nil hd
  have hbd : ∀ k, (hk : k < data.length) → border data k = data[k] := by
    intro k hk
    unfold border
    rw [Nat.min_eq_left (by omega), List.getD_eq_getElem _ _ hk]
  have hlt : data.findIdx (fun i => decide (i > m)) < data.length := by
    rw [List.findIdx_lt_length]
    refine ⟨data[data.length - 1], List.getElem_mem _, ?_⟩
    have := hlast m hmem
    rw [hbd _ (by omega)] at this
    simpa using this
  refine ⟨data.findIdx (fun i => i > m), ?_, hlt, ?_⟩
  · unfold findOffset; rw [e]; rfl
  have hat : m < data[data.findIdx (fun i => decide (i > m))] := by
    have := List.findIdx_getElem (p := fun i => decide (i > m)) (xs := data) (w := hlt)
    simpa using this
  have hmono : data.Pairwise (· ≤ ·) := hm.imp Nat.le_of_lt
  intro l
  constructor
  · intro hkl x hx
    have h1 := border_mono hmono hkl
    rw [hbd _ hlt] at h1
    have := hmax x hx
    omega
  · intro hall
    by_contra hkl
    have hkl' : l < data.findIdx (fun i => decide (i > m)) := by omega
    have h2 := List.not_of_lt_findIdx hkl'
    have h3 := hall m hmem
    rw [hbd l (by omega)] at h3
    simp at h2
    omega

theorem mem_queue [Mul K] [Sub K] [Neg K] [Zero K] [DecidableEq K] {h : Csr K} {invA b : K} {first : Nat} {s : RoSt K}
    (I : SearchInv h invA b first h.length s) : s.queue.length = h.length ∧ ∀ c, c < h.length → c ∈ s.queue := by
  have hsub : s.queue.Subperm (List.range h.length) :=
    List.subperm_of_subset I.nodup fun x hx => List.mem_range.2 (I.lt x hx)
  have hlen : s.queue.length = h.length := by
    have := hsub.length_le
    have := I.le
    simp at *
    omega
  refine ⟨hlen, fun c hc => ?_⟩
  have hp : s.queue.Perm (List.range h.length) := hsub.perm_of_length_le (by simp [hlen])
  exact hp.mem_iff.2 (List.mem_range.2 hc)

theorem reorderIndices_eq {map : List Int} {σ : Fin n → Fin n} (hm : map = List.ofFn fun i => ((σ i).val : Int))
    (idx : List (Fin n)) : reorderIndices map (idx.map (·.val)) = .ok (idx.map fun i => (σ i).val) := by
  unfold reorderIndices
  induction idx with
  | nil => rfl
  | cons i idx ih =>
    rw [List.map_cons, List.mapM_cons]
    have : rd map i.val = .ok ((σ i).val : Int) := by
      unfold rd
      rw [hm, List.getElem?_ofFn]
      simp
    rw [this]
    simp only [Res.bind_ok]
    rw [if_neg (by omega), Res.bind_ok, ih]
    rfl

theorem wr_init {h : Csr K} {first : Nat} (hf : first < h.length) :
    wr (List.replicate h.length (-1 : Int)) first 0 = .ok ((List.replicate h.length (-1)).set first 0) :=
  wr_ok _ _ _ (by simpa using hf)

/-- The borders at the end of a successful search. -/
theorem final_borders [Mul K] [Sub K] [Neg K] [Zero K] [DecidableEq K] {h : Csr K} {invA b : K} {first : Nat} {s : RoSt K}
    (I : SearchInv h invA b first h.length s) (B : BorderInv h h.length s) :
    ∃ bs, s.borders = bs ++ [h.length, h.length] ∧ s.borders.dropLast = bs ++ [h.length] ∧
      (bs ++ [h.length]).Pairwise (· < ·) := by
  have hl := (mem_queue I).1
  rcases B.state with ⟨bs, b, e, h1, h2, -⟩ | ⟨-, bs, e, h3⟩
  · omega
  · refine ⟨bs, e, ?_, h3⟩
    rw [e, show bs ++ [h.length, h.length] = (bs ++ [h.length]) ++ [h.length] by simp, List.dropLast_concat]

theorem createReordered_ok [CommRing K] [DecidableEq K] {h : Csr K} (hs : Sorted n h) (invA b : K) (first : Fin n)
    (src dest : List (Fin n)) (hd : dest ≠ []) (hr : ∀ i : Fin n, Reach h first i) :
    ∃ o σ, createReordered h invA b ((first :: src).map (·.val)) (dest.map (·.val)) = .ok o ∧
      Reordered h invA b first (first :: src) dest o σ := by
  have hn : h.length = n := hs.1
  subst hn
  have hf : first.val < h.length := first.isLt
  obtain ⟨s, e, I, B⟩ : ∃ s, (List.range h.length).foldlM (roRow h invA b) (roInit h first) = .ok s ∧
      SearchInv h invA b first h.length s ∧ BorderInv h h.length s := by
    rcases search hs invA b hf h.length with h1 | ⟨-, u, hu, s, I, hl⟩
    · exact h1
    · exfalso
      have hsub : (List.range h.length).Subperm s.queue := by
        refine List.subperm_of_subset List.nodup_range fun x hx => ?_
        exact reach_mem I hl (hr ⟨x, List.mem_range.1 hx⟩)
      have := hsub.length_le
      simp at this
      omega
  obtain ⟨hlen, hmem⟩ := mem_queue I
  obtain ⟨bs, eb, ed, hbs⟩ := final_borders I B
  -- the permutation
  let f : Fin h.length → Fin h.length := fun i =>
    ⟨s.queue.idxOf i.val, Nat.lt_of_lt_of_eq (List.idxOf_lt_length_iff.2 (hmem i i.isLt)) hlen⟩
  have finj : Function.Injective f := by
    intro i j hij
    have := congrArg Fin.val hij
    exact Fin.ext ((List.idxOf_inj (hmem i i.isLt)).1 this)
  let σ : Equiv.Perm (Fin h.length) := Equiv.ofBijective f (Finite.injective_iff_bijective.1 finj)
  have hσ : ∀ i : Fin h.length, (σ i).val = s.queue.idxOf i.val := fun i => rfl
  have hgetσ : ∀ i : Fin h.length, s.queue.getD (σ i).val 0 = i.val := by
    intro i
    have h1 : s.queue.idxOf i.val < s.queue.length := List.idxOf_lt_length_iff.2 (hmem i i.isLt)
    rw [hσ, List.getD_eq_getElem _ _ h1, List.getElem_idxOf]
  have hmap : s.map = List.ofFn fun i => ((σ i).val : Int) := by
    refine List.ext_getElem? fun c => ?_
    by_cases hc : c < h.length
    · rw [I.map.2 c hc, if_pos (hmem c hc), List.getElem?_ofFn, dif_pos hc]
      rfl
    · rw [List.getElem?_eq_none (by rw [I.map.1]; omega), List.getElem?_eq_none (by simp; omega)]
  -- the slices
  have hdata : s.borders.dropLast ≠ [] := by rw [ed]; simp
  have hblast : border s.borders.dropLast (s.borders.dropLast.length - 1) = h.length := by
    unfold border
    rw [ed]
    simp
  have hpair : s.borders.dropLast.Pairwise (· < ·) := by rw [ed]; exact hbs
  have hbget : ∀ k < s.borders.dropLast.length, s.borders[k]? = some (border s.borders.dropLast k) := by
    intro k hk
    have hk' : k < bs.length + 1 := by rw [ed] at hk; simpa using hk
    unfold border
    rw [Nat.min_eq_left (by omega), List.getD_eq_getElem _ _ hk, ← List.getElem?_eq_getElem hk, List.getElem?_dropLast,
      if_pos (by rw [eb]; simp; omega)]
  obtain ⟨ks, es, ls, ss⟩ := findOffset_spec (data := s.borders.dropLast) (idx := (first :: src).map fun i => (σ i).val)
    (by simp) hdata hpair (by
      intro x hx
      obtain ⟨i, -, rfl⟩ := List.mem_map.1 hx
      rw [hblast]; exact (σ i).isLt)
  obtain ⟨kd, ed', ld, sd⟩ := findOffset_spec (data := s.borders.dropLast) (idx := dest.map fun i => (σ i).val)
    (by simpa using hd) hdata hpair (by
      intro x hx
      obtain ⟨i, -, rfl⟩ := List.mem_map.1 hx
      rw [hblast]; exact (σ i).isLt)
  refine ⟨⟨s.h2, s.map, (first :: src).map fun i => (σ i).val, dest.map fun i => (σ i).val, ⟨s.borders.dropLast, ks, kd⟩⟩, σ,
    ?_, ?_⟩
  · unfold createReordered
    have : rd ((first :: src).map (·.val)) 0 = .ok first.val := rfl
    rw [this, Res.bind_ok, wr_init hf, Res.bind_ok]
    have e' : (List.range h.length).foldlM (roRow h invA b)
        ⟨[first.val], (List.replicate h.length (-1)).set first.val 0, List.replicate h.length [], false, [1]⟩ = .ok s := e
    rw [e', Res.bind_ok, reorderIndices_eq hmap, Res.bind_ok, reorderIndices_eq hmap, Res.bind_ok]
    unfold SliceMap.make
    rw [es, Res.bind_ok, ed']
    rfl
  · refine ⟨?_, ?_, ?_, hmap, rfl, rfl, hdata, hpair, hblast, ?_, ⟨ls, ?_⟩, ⟨ld, ?_⟩⟩
    · exact (Hamiltonian.addAll_ok (by simp) (Hamiltonian.insertAll_addAll I.inserted)).2.1 (Hamiltonian.sorted_zero _)
    · intro i j
      have := search_coeff hs I (σ i).isLt (hmem j j.isLt)
      rw [hgetσ i] at this
      rw [hσ j]
      simp only [Fin.ext_iff]
      exact this
    · rw [hσ]
      have h1 := I.head
      rcases hq : s.queue with _ | ⟨a, l⟩
      · rw [hq] at h1; cases h1
      · rw [hq] at h1
        simp only [List.getElem?_cons_zero, Option.some.injEq] at h1
        rw [h1]; simp
    · intro k i
      have hL : 0 < s.borders.dropLast.length := List.length_pos_of_ne_nil hdata
      simp only
      by_cases hk : k < s.borders.dropLast.length
      · constructor
        · intro hlt
          have := mem_reach I B (hbget k hk) _ hlt
          rw [hgetσ] at this
          exact this
        · intro hw
          exact within_lt I B hw _ (hbget k hk)
      · rw [border_sat _ (by omega), hblast]
        constructor
        · intro hlt
          have := mem_reach I B (hbget (s.borders.dropLast.length - 1) (by omega)) (σ i).val (by rw [hblast]; exact hlt)
          rw [hgetσ] at this
          exact within_mono this k (by omega)
        · intro _; exact (σ i).isLt
    · intro k
      rw [ss k]
      simp
    · intro k
      rw [sd k]
      simp

/-- If some index cannot be reached, the search reads behind the end of its queue. -/
theorem createReordered_ub [CommRing K] [DecidableEq K] {h : Csr K} (hs : Sorted n h) (invA b : K) (first : Fin n)
    (src dest : List Nat) (hr : ¬ ∀ i : Fin n, Reach h first i) :
    createReordered h invA b (first.val :: src) dest = .ub := by
  have hn : h.length = n := hs.1
  subst hn
  have hf : first.val < h.length := first.isLt
  have e : (List.range h.length).foldlM (roRow h invA b) (roInit h first) = .ub := by
    rcases search hs invA b hf h.length with ⟨s, e, I, B⟩ | ⟨e, -⟩
    · exfalso
      apply hr
      intro i
      obtain ⟨hlen, hmem⟩ := mem_queue I
      obtain ⟨bs, eb, ed, hbs⟩ := final_borders I B
      have h1 : s.borders[bs.length]? = some h.length := by rw [eb]; simp
      have h2 : s.queue.idxOf i.val < s.queue.length := List.idxOf_lt_length_iff.2 (hmem i i.isLt)
      have := mem_reach I B h1 (s.queue.idxOf i.val) (by omega)
      rw [List.getD_eq_getElem _ _ h2, List.getElem_idxOf] at this
      exact within_reach this
    · exact e
  unfold createReordered
  have : rd (first.val :: src) 0 = .ok first.val := rfl
  rw [this, Res.bind_ok, wr_init hf, Res.bind_ok]
  have e' : (List.range h.length).foldlM (roRow h invA b)
      ⟨[first.val], (List.replicate h.length (-1)).set first.val 0, List.replicate h.length [], false, [1]⟩ = .ub := e
  rw [e']
  rfl

/-- The reordered matrix is cut into slices, if the pattern of the matrix is symmetric. -/
theorem Reordered.slices [CommRing K] {h : Csr K} {invA b : K} {first : Fin n} {src dest : List (Fin n)} {o : Optimized K}
    {σ : Equiv.Perm (Fin n)} (R : Reordered h invA b first src dest o σ)
    (hsym : ∀ i j : Fin n, Hamiltonian.coeff h i j ≠ 0 → Hamiltonian.coeff h j i ≠ 0) :
    Slices o.slices.data (fun i j : Fin n => Hamiltonian.coeff o.h2 i j) := by
  have hadj : ∀ i j : Nat, Hamiltonian.coeff h i j ≠ 0 → Adj h i j := by
    intro i j hne
    by_contra hno
    apply hne
    unfold Hamiltonian.coeff
    have : (h.getD i []).filter (fun e => decide (e.1 = j)) = [] := by
      rw [List.filter_eq_nil_iff]
      intro e he
      simp only [decide_eq_true_eq]
      intro hej
      exact hno (adj_iff.2 ⟨e, he, hej⟩)
    rw [this]
    rfl
  have key : ∀ (i j : Fin n) k, (i = j ∨ Adj h i j) → (σ i).val < border o.slices.data k →
      (σ j).val < border o.slices.data (k + 1) := by
    intro i j k hij hlt
    rw [R.ball] at hlt ⊢
    rcases hij with rfl | ha
    · exact within_mono hlt _ (by omega)
    · exact .step hlt ha
  have hne : ∀ i j : Fin n, Hamiltonian.coeff o.h2 i j ≠ 0 →
      σ.symm i = σ.symm j ∨ Hamiltonian.coeff h (σ.symm i) (σ.symm j) ≠ 0 := by
    intro i j hne
    have := R.coeff_eq (σ.symm i) (σ.symm j)
    rw [σ.apply_symm_apply, σ.apply_symm_apply] at this
    rw [this] at hne
    by_cases h1 : σ.symm i = σ.symm j
    · exact .inl h1
    · right
      rw [if_neg h1, sub_zero] at hne
      exact fun h0 => hne (by rw [h0, zero_mul])
  refine ⟨R.nonempty, R.borders.imp Nat.le_of_lt, R.last, fun i j k hA hlt => ?_, fun i j k hA hlt => ?_⟩
  · have := key (σ.symm i) (σ.symm j) k ((hne i j hA).imp_right (hadj _ _))
    rw [σ.apply_symm_apply, σ.apply_symm_apply] at this
    exact this hlt
  · have := key (σ.symm j) (σ.symm i) k ((hne i j hA).imp Eq.symm fun h1 => hadj _ _ (hsym _ _ h1))
    rw [σ.apply_symm_apply, σ.apply_symm_apply] at this
    exact this hlt

end Verif.Kpm
