import Verif.Hamiltonian.Props
import Verif.Hamiltonian.Slow
import Mathlib.Data.List.Perm.Subperm
import Mathlib.Data.List.ProdSigma

/-!
# Where the calls go

Every call of the Hamiltonian construction goes to a position inside the block of the matrix that
belongs to a pair of sites.
-/

namespace Verif.Hamiltonian

open Verif.Sublat (Table It iters itersFrom tableNorbs)
open Verif.Sublat.Spec (firstRow)
open Verif.Hopping (COO HoppingBlocks Csr csrInsert overwrite)
open Verif.Lattice (Registry)

variable {C K P : Type}

/-- The block of the matrix that belongs to a pair of sites. -/
def box (norbs : List Nat) (c : COO) : List (Int × Int) :=
  (List.range (norbs.getD c.row 0)).flatMap fun i =>
    (List.range (norbs.getD c.col 0)).map fun j => place norbs c i j

theorem mem_box {norbs : List Nat} {c : COO} {p : Int × Int} : p ∈ box norbs c ↔
    ∃ i j, i < norbs.getD c.row 0 ∧ j < norbs.getD c.col 0 ∧ p = place norbs c i j := by
  unfold box
  simp only [List.mem_flatMap, List.mem_range, List.mem_map]
  constructor
  · rintro ⟨i, hi, j, hj, rfl⟩; exact ⟨i, j, hi, hj, rfl⟩
  · rintro ⟨i, j, hi, hj, rfl⟩; exact ⟨i, hi, j, hj, rfl⟩

theorem firstRow_succ (norbs : List Nat) (k : Nat) :
    firstRow norbs (k + 1) = firstRow norbs k + norbs.getD k 0 := by
  unfold firstRow
  induction norbs generalizing k with
  | nil => simp
  | cons a l ih =>
    cases k with
    | zero => simp
    | succ k =>
      rw [List.take_succ_cons, List.take_succ_cons, List.sum_cons, List.sum_cons, ih]
      simp [Nat.add_assoc]

theorem firstRow_mono (norbs : List Nat) {k k' : Nat} (h : k ≤ k') :
    firstRow norbs k ≤ firstRow norbs k' := by
  induction h with
  | refl => exact Nat.le_refl _
  | step _ ih => rw [firstRow_succ]; omega

theorem firstRow_le_sum (norbs : List Nat) (k : Nat) : firstRow norbs k ≤ norbs.sum := by
  have := firstRow_mono norbs (Nat.le_max_left k norbs.length)
  unfold firstRow at this ⊢
  rwa [List.take_of_length_le (Nat.le_max_right k norbs.length)] at this

theorem firstRow_inj {norbs : List Nat} {k k' i i' : Nat} (hi : i < norbs.getD k 0)
    (hi' : i' < norbs.getD k' 0) (h : firstRow norbs k + i = firstRow norbs k' + i') :
    k = k' ∧ i = i' := by
  have e1 := firstRow_succ norbs k
  have e2 := firstRow_succ norbs k'
  rcases Nat.lt_trichotomy k k' with hk | hk | hk
  · have := firstRow_mono norbs (show k + 1 ≤ k' by omega); omega
  · subst hk; exact ⟨rfl, by omega⟩
  · have := firstRow_mono norbs (show k' + 1 ≤ k by omega); omega

theorem place_inj {norbs : List Nat} {c d : COO} {i j i' j' : Nat} (hi : i < norbs.getD c.row 0)
    (hj : j < norbs.getD c.col 0) (hi' : i' < norbs.getD d.row 0) (hj' : j' < norbs.getD d.col 0)
    (h : place norbs c i j = place norbs d i' j') : c = d ∧ i = i' ∧ j = j' := by
  unfold place at h
  rw [Prod.mk.injEq, Int.natCast_inj, Int.natCast_inj] at h
  obtain ⟨h1, h2⟩ := firstRow_inj hi hi' h.1
  obtain ⟨h3, h4⟩ := firstRow_inj hj hj' h.2
  obtain ⟨a, b⟩ := c
  obtain ⟨a', b'⟩ := d
  simp only at h1 h3
  subst h1; subst h3
  exact ⟨rfl, h2, h4⟩

theorem box_nodup (norbs : List Nat) (c : COO) : (box norbs c).Nodup := by
  unfold box
  rw [List.nodup_flatMap]
  constructor
  · intro i hi
    refine List.Nodup.map_on ?_ List.nodup_range
    intro j hj j' hj' h
    exact (place_inj (List.mem_range.1 hi) (List.mem_range.1 hj) (List.mem_range.1 hi) (List.mem_range.1 hj') h).2.2
  · refine List.Pairwise.imp_of_mem ?_ (List.nodup_range (n := norbs.getD c.row 0))
    intro i i' hi hi' hne
    rw [Function.onFun, List.disjoint_left]
    intro p hp hp'
    obtain ⟨j, hj, rfl⟩ := List.mem_map.1 hp
    obtain ⟨j', hj', e⟩ := List.mem_map.1 hp'
    exact hne (place_inj (List.mem_range.1 hi') (List.mem_range.1 hj') (List.mem_range.1 hi) (List.mem_range.1 hj) e).2.1.symm

/-- The blocks of different pairs of sites have no element in common. -/
theorem boxes_nodup (norbs : List Nat) (B : List COO) (h : B.Nodup) : (B.flatMap (box norbs)).Nodup := by
  rw [List.nodup_flatMap]
  refine ⟨fun c _ => box_nodup norbs c, ?_⟩
  refine List.Pairwise.imp ?_ h
  intro c d hne
  rw [Function.onFun, List.disjoint_left]
  intro p hp hp'
  obtain ⟨i, j, hi, hj, rfl⟩ := mem_box.1 hp
  obtain ⟨i', j', hi', hj', e⟩ := mem_box.1 hp'
  exact hne (place_inj hi hj hi' hj' e).1

theorem box_range {norbs : List Nat} {c : COO} {p : Int × Int} (hp : p ∈ box norbs c) :
    (0 ≤ p.1 ∧ p.1 < (norbs.sum : Nat)) ∧ 0 ≤ p.2 ∧ p.2 < (norbs.sum : Nat) := by
  obtain ⟨i, j, hi, hj, rfl⟩ := mem_box.1 hp
  have h1 := firstRow_le_sum norbs (c.row + 1)
  have h2 := firstRow_le_sum norbs (c.col + 1)
  rw [firstRow_succ] at h1 h2
  unfold place
  simp only
  omega

/-- The number of positions of a block in the row of orbital `i` of site `k`. -/
theorem box_row (norbs : List Nat) (c : COO) (k i : Nat) (hi : i < norbs.getD k 0) :
    (box norbs c).countP (fun p => p.1 = ((firstRow norbs k + i : Nat) : Int))
      = if c.row = k then norbs.getD c.col 0 else 0 := by
  unfold box
  rw [List.countP_flatMap]
  split
  · rename_i hk
    subst hk
    have : ((List.range (norbs.getD c.row 0)).map fun i' => ((List.range (norbs.getD c.col 0)).map
        fun j => place norbs c i' j).countP (fun p => p.1 = ((firstRow norbs c.row + i : Nat) : Int)))
        = (List.range (norbs.getD c.row 0)).map fun i' => if i' = i then norbs.getD c.col 0 else 0 := by
      apply List.map_congr_left
      intro i' _
      rw [List.countP_map]
      split
      · rename_i h
        subst h
        rw [List.countP_eq_length.2 (by intro j _; simp [place])]
        simp
      · rename_i h
        rw [List.countP_eq_zero]
        intro j _
        simp only [Function.comp_apply, place, decide_eq_true_eq]
        omega
    have e2 : (List.countP (fun p : Int × Int => decide (p.1 = ((firstRow norbs c.row + i : Nat) : Int))) ∘
        fun i => List.map (fun j => place norbs c i j) (List.range (norbs.getD c.col 0)))
        = fun i' => ((List.range (norbs.getD c.col 0)).map
        fun j => place norbs c i' j).countP (fun p => p.1 = ((firstRow norbs c.row + i : Nat) : Int)) := rfl
    rw [e2, this]
    clear this e2
    generalize norbs.getD c.row 0 = n at hi
    induction n with
    | zero => omega
    | succ n ih =>
      rw [List.range_succ, List.map_append, List.sum_append]
      by_cases h : i < n
      · rw [ih h]
        simp only [List.map_cons, List.map_nil, List.sum_cons, List.sum_nil]
        rw [if_neg (by omega)]; rfl
      · have hin : i = n := by omega
        subst hin
        rw [List.sum_eq_zero]
        · simp
        · intro x hx
          obtain ⟨y, hy, rfl⟩ := List.mem_map.1 hx
          rw [if_neg (by have := List.mem_range.1 hy; omega)]
  · rename_i hk
    apply List.sum_eq_zero
    intro x hx
    obtain ⟨i', hi', rfl⟩ := List.mem_map.1 hx
    rw [Function.comp_apply, List.countP_eq_zero]
    intro p hp
    obtain ⟨j, hj, rfl⟩ := List.mem_map.1 hp
    intro h
    exact hk (firstRow_inj (List.mem_range.1 hi') hi (Int.natCast_inj.1 (of_decide_eq_true h))).1

theorem flatMap_single {α β : Type} (l : List α) (f : α → β) : (l.flatMap fun a => [f a]) = l.map f := by
  induction l <;> simp [*]

/-! ## Onsite calls -/

/-- The position of a call. -/
def pos (c : Call K) : Int × Int := (c.1, c.2.1)

theorem emit_sublist [Zero K] [DecidableEq K] (idx : List (Int × Int)) (data : List K) :
    ((emit idx data).map pos).Sublist idx := by
  unfold emit
  induction idx generalizing data with
  | nil => simp
  | cons p idx ih =>
    cases data with
    | nil => simp
    | cons v data =>
      rw [List.zip_cons_cons, List.filterMap_cons]
      split
      · exact (ih data).cons _
      · rename_i x hx
        rw [List.map_cons]
        split at hx
        · cases hx
        · simp only [Option.some.injEq] at hx
          subst hx
          exact (ih data).cons_cons _

theorem onsiteLoop_sublist [Zero K] [DecidableEq K] (cast : C → K) (s : System C P)
    (mods : List (OnsiteModifier K P)) (b : Bool) (subs : List It) (calls : List (Call K))
    (h : onsiteLoop cast s mods b subs = .ok calls) :
    (calls.map pos).Sublist (subs.flatMap onsiteIndices) := by
  induction subs generalizing calls with
  | nil =>
    simp only [onsiteLoop, Res.ok.injEq] at h
    subst h; simp
  | cons sub subs ih =>
    unfold onsiteLoop at h
    rcases hd : onsiteData cast s mods b sub with d | _ | _
    · rw [hd] at h
      simp only [Res.bind_ok] at h
      rcases hr : onsiteLoop cast s mods b subs with r | _ | _
      · rw [hr] at h
        simp only [Res.bind_ok, Res.pure_eq, Res.ok.injEq] at h
        subst h
        rw [List.map_append, List.flatMap_cons]
        exact (emit_sublist _ _).append (ih r hr)
      · rw [hr] at h; cases h
      · rw [hr] at h; cases h
    · rw [hd] at h; cases h
    · rw [hd] at h; cases h

theorem flatMap_comm_perm {α β γ : Type} (l : List α) (m : List β) (f : α → β → List γ) :
    (l.flatMap fun a => m.flatMap fun b => f a b).Perm (m.flatMap fun b => l.flatMap fun a => f a b) := by
  induction l with
  | nil => simp
  | cons a l ih =>
    simp only [List.flatMap_cons]
    exact (List.Perm.append_left _ ih).trans (flatMap_append_perm' m (fun b => f a b)
      (fun b => l.flatMap fun a => f a b)).symm

theorem getD_replicate_append (n v k : Nat) (l : List Nat) :
    (List.replicate n v ++ l).getD k 0 = if k < n then v else l.getD (k - n) 0 := by
  rw [List.getD_eq_getElem?_getD, List.getElem?_append, List.length_replicate]
  split
  · rename_i h; rw [List.getElem?_replicate, if_pos h]; rfl
  · rw [← List.getD_eq_getElem?_getD]

theorem firstRow_replicate_append (n v k : Nat) (l : List Nat) :
    firstRow (List.replicate n v ++ l) k
      = if k < n then k * v else n * v + firstRow l (k - n) := by
  unfold firstRow
  rw [List.take_append, List.sum_append, List.take_replicate, List.length_replicate, List.sum_replicate_nat]
  split
  · rename_i h
    rw [Nat.min_eq_left (by omega), show k - n = 0 by omega]; simp
  · rename_i h
    rw [Nat.min_eq_right (by omega)]

/-- The positions visited by the onsite loop are the diagonal blocks of the sites. -/
theorem onsite_perm (t : Table) (a h : Nat) :
    ((itersFrom a h t).flatMap onsiteIndices).Perm
      ((List.range (tableNorbs t).length).flatMap fun k =>
        (List.range ((tableNorbs t).getD k 0)).flatMap fun i =>
          (List.range ((tableNorbs t).getD k 0)).map fun j =>
            (((h + firstRow (tableNorbs t) k + i : Nat) : Int), ((h + firstRow (tableNorbs t) k + j : Nat) : Int))) := by
  induction t generalizing a h with
  | nil => simp [itersFrom, tableNorbs]
  | cons e t ih =>
    have hn : tableNorbs (e :: t) = List.replicate e.numSites e.numOrb ++ tableNorbs t := by
      simp [tableNorbs]
    unfold itersFrom
    rw [List.flatMap_cons, hn, List.length_append, List.length_replicate, List.range_add,
      List.flatMap_append]
    refine List.Perm.append ?_ ?_
    · have e1 : onsiteIndices ⟨e, a, h⟩ = (List.range e.numOrb).flatMap fun i =>
          (List.range e.numOrb).flatMap fun j => (List.range e.numSites).flatMap fun k =>
          [(((i + (h + k * e.numOrb) : Nat) : Int), ((j + (h + k * e.numOrb) : Nat) : Int))] := by
        simp only [flatMap_single]
        rfl
      have e2 : ∀ k i : Nat, (List.range e.numOrb).map (fun j =>
          (((i + (h + k * e.numOrb) : Nat) : Int), ((j + (h + k * e.numOrb) : Nat) : Int)))
          = (List.range e.numOrb).flatMap (fun j =>
          [(((i + (h + k * e.numOrb) : Nat) : Int), ((j + (h + k * e.numOrb) : Nat) : Int))]) := by
        intro k i; rw [flatMap_single]
      rw [e1]
      refine (flatMap_perm_congr _ _ _ fun i _ => flatMap_comm_perm _ _ _).trans ?_
      refine (flatMap_comm_perm _ _ _).trans ?_
      refine flatMap_perm_congr _ _ _ fun k hk => ?_
      have hk' := List.mem_range.1 hk
      rw [getD_replicate_append, if_pos hk', firstRow_replicate_append, if_pos hk']
      simp only [← e2]
      refine List.Perm.of_eq ?_
      congr 1; funext i
      congr 1; funext j
      rw [Prod.mk.injEq, Int.natCast_inj, Int.natCast_inj]
      omega
    · rw [List.flatMap_map]
      refine (ih _ _).trans (List.Perm.of_eq ?_)
      congr 1; funext k
      rw [getD_replicate_append, if_neg (by omega), firstRow_replicate_append, if_neg (by omega),
        Nat.add_sub_cancel_left]
      congr 1; funext i
      congr 1; funext j
      rw [Prod.mk.injEq, Int.natCast_inj, Int.natCast_inj]
      omega

/-- The diagonal pairs. -/
def diagPairs (n : Nat) : List COO := (List.range n).map fun k => ⟨k, k⟩

theorem onsite_boxes (t : Table) : ((iters t).flatMap onsiteIndices).Perm
    ((diagPairs (tableNorbs t).length).flatMap (box (tableNorbs t))) := by
  refine (onsite_perm t 0 0).trans (List.Perm.of_eq ?_)
  unfold diagPairs
  rw [List.flatMap_map]
  congr 1; funext k
  unfold box place
  simp only [Nat.zero_add]

theorem applyToOnsite_places [Zero C] [DecidableEq C] [Zero K] [DecidableEq K] (cast : C → K)
    (s : System C P) (mods : Modifiers K P) (calls : List (Call K))
    (h : applyToOnsite cast s mods = .ok calls) :
    (calls.map pos).Subperm
      ((diagPairs (tableNorbs s.sublattices).length).flatMap (box (tableNorbs s.sublattices))) := by
  unfold applyToOnsite at h
  simp only at h
  split at h
  · simp only [Res.ok.injEq] at h
    subst h
    simp
  · exact (onsiteLoop_sublist cast s mods.onsite _ _ calls h).subperm.trans
      (onsite_boxes s.sublattices).subperm

/-! ## Hopping calls -/

/-- The hopping table fits the system: the sites are ordered by number of orbitals, every site has
at least one, and every pair of sites in the table of a family has the orbital numbers of the energy
`E fam` registered for the family. -/
structure HopOK [Zero C] (s : System C P) (h : HoppingBlocks) (E : Nat → Mat C) (N : Nat → String) : Prop where
  sorted : (s.sublattices.map (·.numOrb)).Pairwise (· ≤ ·)
  orb : ∀ n ∈ tableNorbs s.sublattices, 0 < n
  energy : ∀ fam, fam < h.blocks.length → s.hoppingRegistry.energy fam = .ok (E fam)
  name : ∀ fam, fam < h.blocks.length → s.hoppingRegistry.name fam = .ok (N fam)
  fits : ∀ (fam : Nat) b, h.blocks[fam]? = some b → ∀ c ∈ b, Fits (tableNorbs s.sublattices) (E fam) c

theorem indices_perm (norbs : List Nat) (m : Mat C) (tr : Translator) (htr1 : tr.rows = m.rows)
    (htr2 : tr.cols = m.cols)
    (htr : ∀ c, Fits norbs m c → ∀ i j : Nat,
        ((tr.hamRow + i : Int) + ((c.row : Int) - tr.sysRow) * tr.rows,
          (tr.hamCol + j : Int) + ((c.col : Int) - tr.sysCol) * tr.cols)
            = place norbs c i j)
    (coos : List COO) (hf : ∀ c ∈ coos, Fits norbs m c) :
    (tr.indices coos).Perm (coos.flatMap (box norbs)) := by
  unfold Translator.indices
  have e1 : ∀ i j : Nat, coos.map (fun c =>
      ((tr.hamRow + i : Int) + ((c.row : Int) - tr.sysRow) * tr.rows,
          (tr.hamCol + j : Int) + ((c.col : Int) - tr.sysCol) * tr.cols))
      = coos.flatMap fun c => [place norbs c i j] := by
    intro i j
    rw [flatMap_single]
    exact List.map_congr_left fun c hc => htr c (hf c hc) i j
  simp only [e1]
  refine (flatMap_perm_congr _ _ _ fun i _ => flatMap_comm_perm _ _ _).trans ?_
  refine (flatMap_comm_perm _ _ _).trans ?_
  refine flatMap_perm_congr _ _ _ fun c hc => List.Perm.of_eq ?_
  obtain ⟨h1, h2⟩ := hf c hc
  unfold box
  rw [List.getD_eq_getElem?_getD, List.getD_eq_getElem?_getD, h1, h2, htr1, htr2]
  congr 1; funext i
  rw [flatMap_single]
  rfl

theorem hoppingSlices_places [Zero K] [DecidableEq K] [Sub P] (s : System C P)
    (mods : List (HoppingModifier K P)) (shift : Option P) (unit : List K) (name : String)
    (m : Mat C) (tr : Translator) (htr1 : tr.rows = m.rows) (htr2 : tr.cols = m.cols)
    (htr : ∀ c, Fits (tableNorbs s.sublattices) m c → ∀ i j : Nat,
        ((tr.hamRow + i : Int) + ((c.row : Int) - tr.sysRow) * tr.rows,
          (tr.hamCol + j : Int) + ((c.col : Int) - tr.sysCol) * tr.cols)
            = place (tableNorbs s.sublattices) c i j)
    (ss : List (List COO)) (hf : ∀ c ∈ ss.flatten, Fits (tableNorbs s.sublattices) m c)
    (calls : List (Call K)) (h : hoppingSlices s mods shift unit name tr ss = .ok calls) :
    (calls.map pos).Subperm (ss.flatten.flatMap (box (tableNorbs s.sublattices))) := by
  induction ss generalizing calls with
  | nil =>
    simp only [hoppingSlices, Res.ok.injEq] at h
    subst h; simp
  | cons coos ss ih =>
    unfold hoppingSlices at h
    rcases ha : hoppingSlice s mods shift unit name tr coos with a | _ | _
    · rw [ha] at h
      simp only [Res.bind_ok] at h
      rcases hb : hoppingSlices s mods shift unit name tr ss with b | _ | _
      · rw [hb] at h
        simp only [Res.bind_ok, Res.pure_eq, Res.ok.injEq] at h
        subst h
        rw [List.map_append, List.flatten_cons, List.flatMap_append]
        have hb' := ih (fun c hc => hf c (by rw [List.flatten_cons]; exact List.mem_append_right _ hc)) b hb
        refine List.Subperm.append ?_ hb'
        unfold hoppingSlice at ha
        rcases he : ends s.positions shift coos with ⟨p1, p2⟩ | _ | _
        · rw [he] at ha
          simp only [Res.bind_ok] at ha
          rcases hr : runHopping p1 p2 name mods (unit.flatMap fun v => List.replicate coos.length v) with d | _ | _
          · rw [hr] at ha
            simp only [Res.bind_ok, Res.pure_eq, Res.ok.injEq] at ha
            subst ha
            exact (emit_sublist _ _).subperm.trans (indices_perm _ m tr htr1 htr2 htr coos
              fun c hc => hf c (by simp [hc])).subperm
          · rw [hr] at ha; cases ha
          · rw [hr] at ha; cases ha
        · rw [he] at ha; cases ha
        · rw [he] at ha; cases ha
      · rw [hb] at h; cases h
      · rw [hb] at h; cases h
    · rw [ha] at h; cases h
    · rw [ha] at h; cases h

theorem slowBlock_places [Zero K] [DecidableEq K] [Sub P] (cast : C → K) (s : System C P)
    (mods : List (HoppingModifier K P)) (maxBuffer : Nat) (shift : Option P) (m : Mat C) (fam : Nat)
    (hs : (s.sublattices.map (·.numOrb)).Pairwise (· ≤ ·))
    (hp : ∀ n ∈ tableNorbs s.sublattices, 0 < n)
    (hm : s.hoppingRegistry.energy fam = .ok m)
    (block : List COO) (hf : ∀ c ∈ block, Fits (tableNorbs s.sublattices) m c)
    (calls : List (Call K)) (h : slowBlock cast s mods maxBuffer shift fam block = .ok calls) :
    (calls.map pos).Subperm (block.flatMap (box (tableNorbs s.sublattices))) := by
  unfold slowBlock at h
  cases block with
  | nil =>
    simp only [List.isEmpty_nil, if_true, Res.ok.injEq] at h
    subst h; simp
  | cons c0 rest =>
    have hf0 := hf c0 List.mem_cons_self
    have hr : 0 < m.rows := hp _ (List.mem_of_getElem? hf0.1)
    have hc : 0 < m.cols := hp _ (List.mem_of_getElem? hf0.2)
    obtain ⟨tr, e1, e2, e3, e4⟩ := translator_spec s.sublattices hs m hr hc (c0 :: rest) (by simp) hf
    simp only [List.isEmpty_cons, Bool.false_eq_true, if_false, hm, Res.bind_ok] at h
    rcases hn : s.hoppingRegistry.name fam with nm | _ | _
    · simp only [hn, Res.bind_ok, e1] at h
      split at h
      · cases h
      · split at h
        · cases h
        · rename_i hstep
          have hfl := sliced_flatten _ (Nat.pos_of_ne_zero hstep) (c0 :: rest).length (c0 :: rest) (Nat.le_refl _)
          have := hoppingSlices_places s mods shift _ nm m tr e2 e3 e4 _ (by rw [hfl]; exact hf) calls h
          rwa [hfl] at this
    · rw [hn] at h; cases h
    · rw [hn] at h; cases h

theorem fastBlock_places [Zero C] [Zero K] [DecidableEq K] (cast : C → K) (s : System C P)
    (m : Mat C) (fam : Nat)
    (hs : (s.sublattices.map (·.numOrb)).Pairwise (· ≤ ·))
    (hp : ∀ n ∈ tableNorbs s.sublattices, 0 < n)
    (hm : s.hoppingRegistry.energy fam = .ok m) (h1 : m.size = 1)
    (block : List COO) (hf : ∀ c ∈ block, Fits (tableNorbs s.sublattices) m c)
    (calls : List (Call K)) (h : fastBlock cast s fam block = .ok calls) :
    (calls.map pos).Subperm (block.flatMap (box (tableNorbs s.sublattices))) := by
  obtain ⟨hr, hc⟩ := mat_one h1
  have hflat : (flat m).head? = some (entry m 0 0) := by
    rw [flat_eq, hr, hc]
    simp
  unfold fastBlock at h
  rw [hm] at h
  simp only [Res.bind_ok, hflat, Res.pure_eq, Res.ok.injEq] at h
  subst h
  refine (List.Perm.of_eq ?_).subperm
  clear hflat
  induction block with
  | nil => rfl
  | cons c block ih =>
    have hfc := hf c List.mem_cons_self
    rw [List.map_cons, List.map_cons, List.flatMap_cons, ih fun d hd => hf d (List.mem_cons_of_mem _ hd)]
    have hk1 := firstRow_single s.sublattices hs hp c.row (by rw [hfc.1, hr])
    have hk2 := firstRow_single s.sublattices hs hp c.col (by rw [hfc.2, hc])
    unfold box place
    rw [List.getD_eq_getElem?_getD, List.getD_eq_getElem?_getD, hfc.1, hfc.2, hr, hc, hk1, hk2]
    simp [pos]

theorem blockLoop_places (f : Nat → List COO → Res (List (Call K))) (norbs : List Nat)
    (fam : Nat) (bs : List (List COO))
    (h : ∀ (i : Nat) b, bs[i]? = some b → ∀ calls, f (fam + i) b = .ok calls →
      (calls.map pos).Subperm (b.flatMap (box norbs)))
    (calls : List (Call K)) (hc : blockLoop f fam bs = .ok calls) :
    (calls.map pos).Subperm (bs.flatten.flatMap (box norbs)) := by
  induction bs generalizing fam calls with
  | nil =>
    simp only [blockLoop, Res.ok.injEq] at hc
    subst hc; simp
  | cons b bs ih =>
    unfold blockLoop at hc
    rcases ha : f fam b with a | _ | _
    · rw [ha] at hc
      simp only [Res.bind_ok] at hc
      rcases hb : blockLoop f (fam + 1) bs with d | _ | _
      · rw [hb] at hc
        simp only [Res.bind_ok, Res.pure_eq, Res.ok.injEq] at hc
        subst hc
        rw [List.map_append, List.flatten_cons, List.flatMap_append]
        refine (h 0 b rfl a (by simpa using ha)).append (ih (fam + 1) (fun i b hb => ?_) d hb)
        have := h (i + 1) b (by simpa using hb)
        rwa [show fam + (i + 1) = fam + 1 + i by omega] at this
      · rw [hb] at hc; cases hc
      · rw [hb] at hc; cases hc
    · rw [ha] at hc; cases hc
    · rw [ha] at hc; cases hc

theorem single_energy {r : Registry C} (h : hasMultipleOrbitals r = false) {fam : Nat} {m : Mat C}
    (hm : r.energy fam = .ok m) : m.size = 1 := by
  have hmem : m ∈ r.energies := by
    have := energyAt_mem (r := r) (id := (fam : Int)) (m := m) (by
      unfold energyAt
      rw [if_neg (by omega)]
      exact hm)
    exact this
  unfold hasMultipleOrbitals at h
  rw [List.any_eq_false] at h
  have := h m hmem
  simpa using this

/-- Whatever the modifiers do, the hoppings only go to the blocks of their pairs of sites, each
position at most as often as there are pairs. -/
theorem applyToHoppings_places [Zero C] [Zero K] [DecidableEq K] [Sub P] (cast : C → K) (s : System C P)
    (mods : Modifiers K P) (maxBuffer : Nat) (shift : Option P) (h : HoppingBlocks)
    (E : Nat → Mat C) (N : Nat → String) (hok : HopOK s h E N) (calls : List (Call K))
    (hc : applyToHoppings cast s mods maxBuffer shift h = .ok calls) :
    (calls.map pos).Subperm (h.blocks.flatten.flatMap (box (tableNorbs s.sublattices))) := by
  unfold applyToHoppings at hc
  split at hc
  · rename_i hfast
    refine blockLoop_places _ _ 0 _ ?_ calls hc
    intro i b hb cs hcs
    rw [Nat.zero_add] at hcs
    have hi := (List.getElem?_eq_some_iff.1 hb).1
    exact fastBlock_places cast s (E i) i hok.sorted hok.orb (hok.energy i hi)
      (single_energy hfast.2 (hok.energy i hi)) b (hok.fits i b hb) cs hcs
  · refine blockLoop_places _ _ 0 _ ?_ calls hc
    intro i b hb cs hcs
    rw [Nat.zero_add] at hcs
    have hi := (List.getElem?_eq_some_iff.1 hb).1
    exact slowBlock_places cast s mods.hopping maxBuffer shift (E i) i hok.sorted hok.orb
      (hok.energy i hi) b (hok.fits i b hb) cs hcs

end Verif.Hamiltonian
