import Verif.Hamiltonian.Places

/-!
# C22 and C23: hopping modifiers, buffers and build paths
-/

namespace Verif.Hamiltonian

open Verif.Sublat (Table It iters itersFrom tableNorbs)
open Verif.Sublat.Spec (firstRow)
open Verif.Hopping (COO HoppingBlocks Csr csrInsert overwrite)
open Verif.Lattice (Registry)

variable {C K P : Type}

/-- Specification: the non-zero matrix elements of all hoppings of a table. -/
def specHoppings [Zero C] [Zero K] [DecidableEq K] [Sub P] (cast : C → K) (norbs : List Nat)
    (posAt : Nat → P) (shift : Option P) (gs : List (ElemFn K P)) (E : Nat → Mat C) (N : Nat → String)
    (blocks : List (List COO)) : List (Call K) :=
  blocks.zipIdx.flatMap fun p => p.1.flatMap fun c =>
    hopCalls cast norbs posAt shift gs (E p.2) (N p.2) c

theorem filter_nonzero_of [Zero K] [DecidableEq K] {calls spec : List (Call K)} (h : calls.Perm spec)
    (hs : ∀ x ∈ spec, x.2.2 ≠ 0) : (calls.filter (fun c => c.2.2 ≠ 0)).Perm spec := by
  rw [List.filter_eq_self.2]
  · exact h
  · intro x hx
    exact decide_eq_true (hs x (h.mem_iff.1 hx))

/-- **C23**: with element-wise modifiers, the consumer gets, for every hopping of every family, the
elements of its own energy modified in order with its own end positions, each exactly once (zero
elements are passed on only by the fast path, which does not look at the value).  The outcome is the
same for every buffer size that holds at least one matrix, and on both paths. -/
theorem C23_hoppings [Zero C] [Zero K] [DecidableEq K] [Sub P] (cast : C → K) (s : System C P)
    (mods : Modifiers K P) (gs : List (ElemFn K P)) (maxBuffer : Nat) (shift : Option P)
    (h : HoppingBlocks) (E : Nat → Mat C) (N : Nat → String) (hok : HopOK s h E N)
    (posAt : Nat → P) (hpos : ∀ k, k < (tableNorbs s.sublattices).length → s.positions[k]? = some (posAt k))
    (hbuf : ∀ (fam : Nat) b, h.blocks[fam]? = some b → (E fam).size ≤ maxBuffer)
    (hch : ∀ (fam : Nat) b, h.blocks[fam]? = some b → Chain (E fam).rows (E fam).cols mods.hopping gs) :
    ∃ calls, applyToHoppings cast s mods maxBuffer shift h = .ok calls ∧
      (calls.filter (fun c => c.2.2 ≠ 0)).Perm
        (specHoppings cast (tableNorbs s.sublattices) posAt shift gs E N h.blocks) ∧
      (mods.hopping ≠ [] → ∀ c ∈ calls, c.2.2 ≠ 0) := by
  unfold applyToHoppings
  split
  · rename_i hfast
    have hnil : mods.hopping = [] := by simpa using hfast.1
    obtain ⟨calls, h1, h2⟩ := blockLoop_spec (fastBlock cast s)
      (fun fam b => b.flatMap (hopCalls cast (tableNorbs s.sublattices) posAt shift gs (E fam) (N fam)))
      0 h.blocks (by
        intro i b hb
        have hi := (List.getElem?_eq_some_iff.1 hb).1
        have hg := hch i b hb
        rw [hnil] at hg
        cases hg
        obtain ⟨calls, a, -, c⟩ := fastBlock_spec cast s shift (E i) (N i) posAt i hok.sorted hok.orb
          (hok.energy i hi) (single_energy hfast.2 (hok.energy i hi)) b (hok.fits i b hb)
        rw [Nat.zero_add]
        exact ⟨calls, a, List.Perm.of_eq c⟩)
    exact ⟨calls, h1, h2, fun hne => absurd hnil hne⟩
  · rename_i hslow
    have key : ∀ (i : Nat) b, h.blocks[i]? = some b →
        ∃ calls, slowBlock cast s mods.hopping maxBuffer shift (0 + i) b = .ok calls ∧
          (calls.filter (fun c => c.2.2 ≠ 0)).Perm
            (b.flatMap (hopCalls cast (tableNorbs s.sublattices) posAt shift gs (E (0 + i)) (N (0 + i)))) := by
      intro i b hb
      have hi := (List.getElem?_eq_some_iff.1 hb).1
      rw [Nat.zero_add]
      obtain ⟨calls, a, c⟩ := slowBlock_spec cast s mods.hopping gs maxBuffer shift (E i) (N i) posAt i
        hok.sorted hok.orb (hok.energy i hi) (hok.name i hi) (hbuf i b hb) (hch i b hb) b (hok.fits i b hb)
        (by
          intro c hc
          obtain ⟨f1, f2⟩ := hok.fits i b hb c hc
          exact ⟨hpos _ (List.getElem?_eq_some_iff.1 f1).1, hpos _ (List.getElem?_eq_some_iff.1 f2).1⟩)
      refine ⟨calls, a, filter_nonzero_of c ?_⟩
      intro x hx
      obtain ⟨c, -, hx⟩ := List.mem_flatMap.1 hx
      exact elemCalls_nonzero _ _ _ _ x hx
    obtain ⟨calls, h1, h2⟩ := blockLoop_spec (slowBlock cast s mods.hopping maxBuffer shift)
      (fun fam b => b.flatMap (hopCalls cast (tableNorbs s.sublattices) posAt shift gs (E fam) (N fam)))
      0 h.blocks key
    refine ⟨calls, h1, h2, fun _ => ?_⟩
    have hnz : ∀ (bs : List (List COO)) (fam : Nat) (cs : List (Call K)),
        blockLoop (slowBlock cast s mods.hopping maxBuffer shift) fam bs = .ok cs → ∀ c ∈ cs, c.2.2 ≠ 0 := by
      have hsl : ∀ (ss : List (List COO)) unit name tr (cs : List (Call K)),
          hoppingSlices s mods.hopping shift unit name tr ss = .ok cs → ∀ c ∈ cs, c.2.2 ≠ 0 := by
        intro ss unit name tr
        induction ss with
        | nil => intro cs h; simp only [hoppingSlices, Res.ok.injEq] at h; subst h; simp
        | cons coos ss ih =>
          intro cs h
          unfold hoppingSlices at h
          rcases ha : hoppingSlice s mods.hopping shift unit name tr coos with a | _ | _
          · rw [ha] at h
            simp only [Res.bind_ok] at h
            rcases hb : hoppingSlices s mods.hopping shift unit name tr ss with b | _ | _
            · rw [hb] at h
              simp only [Res.bind_ok, Res.pure_eq, Res.ok.injEq] at h
              subst h
              intro c hc
              rcases List.mem_append.1 hc with hc | hc
              · unfold hoppingSlice at ha
                rcases he : ends s.positions shift coos with ⟨p1, p2⟩ | _ | _
                · rw [he] at ha
                  simp only [Res.bind_ok] at ha
                  rcases hr : runHopping p1 p2 name mods.hopping (unit.flatMap fun v => List.replicate coos.length v) with d | _ | _
                  · rw [hr] at ha
                    simp only [Res.bind_ok, Res.pure_eq, Res.ok.injEq] at ha
                    subst ha
                    unfold emit at hc
                    obtain ⟨p, -, hp⟩ := List.mem_filterMap.1 hc
                    split at hp
                    · cases hp
                    · rename_i hv
                      simp only [Option.some.injEq] at hp
                      subst hp
                      exact hv
                  · rw [hr] at ha; cases ha
                  · rw [hr] at ha; cases ha
                · rw [he] at ha; cases ha
                · rw [he] at ha; cases ha
              · exact ih b hb c hc
            · rw [hb] at h; cases h
            · rw [hb] at h; cases h
          · rw [ha] at h; cases h
          · rw [ha] at h; cases h
      intro bs
      induction bs with
      | nil => intro fam cs h; simp only [blockLoop, Res.ok.injEq] at h; subst h; simp
      | cons b bs ih =>
        intro fam cs h
        unfold blockLoop at h
        rcases ha : slowBlock cast s mods.hopping maxBuffer shift fam b with a | _ | _
        · rw [ha] at h
          simp only [Res.bind_ok] at h
          rcases hb : blockLoop (slowBlock cast s mods.hopping maxBuffer shift) (fam + 1) bs with d | _ | _
          · rw [hb] at h
            simp only [Res.bind_ok, Res.pure_eq, Res.ok.injEq] at h
            subst h
            intro c hc
            rcases List.mem_append.1 hc with hc | hc
            · unfold slowBlock at ha
              split at ha
              · simp only [Res.ok.injEq] at ha; subst ha; simp at hc
              · rcases h1 : s.hoppingRegistry.energy fam with m | _ | _
                · simp only [h1, Res.bind_ok] at ha
                  rcases h2 : s.hoppingRegistry.name fam with nm | _ | _
                  · simp only [h2, Res.bind_ok] at ha
                    rcases h3 : translator s.sublattices m with tr | _ | _
                    · simp only [h3, Res.bind_ok] at ha
                      split at ha
                      · cases ha
                      · split at ha
                        · cases ha
                        · exact hsl _ _ _ _ a ha c hc
                    · simp only [h3] at ha; cases ha
                    · simp only [h3] at ha; cases ha
                  · simp only [h2] at ha; cases ha
                  · simp only [h2] at ha; cases ha
                · simp only [h1] at ha; cases ha
                · simp only [h1] at ha; cases ha
            · exact ih _ d hb c hc
          · rw [hb] at h; cases h
          · rw [hb] at h; cases h
        · rw [ha] at h; cases h
        · rw [ha] at h; cases h
    exact hnz _ _ _ h1

/-- **C23**: the result does not depend on the buffer size. -/
theorem C23_buffer_size [Zero C] [AddCommMonoid K] [DecidableEq K] [Sub P] (cast : C → K) (s : System C P)
    (mods : Modifiers K P) (gs : List (ElemFn K P)) (b1 b2 : Nat) (shift : Option P)
    (h : HoppingBlocks) (E : Nat → Mat C) (N : Nat → String) (hok : HopOK s h E N)
    (posAt : Nat → P) (hpos : ∀ k, k < (tableNorbs s.sublattices).length → s.positions[k]? = some (posAt k))
    (hb1 : ∀ (fam : Nat) b, h.blocks[fam]? = some b → (E fam).size ≤ b1)
    (hb2 : ∀ (fam : Nat) b, h.blocks[fam]? = some b → (E fam).size ≤ b2)
    (hch : ∀ (fam : Nat) b, h.blocks[fam]? = some b → Chain (E fam).rows (E fam).cols mods.hopping gs) :
    ∃ c1 c2, applyToHoppings cast s mods b1 shift h = .ok c1 ∧
      applyToHoppings cast s mods b2 shift h = .ok c2 ∧
      (c1.filter (fun c => c.2.2 ≠ 0)).Perm (c2.filter (fun c => c.2.2 ≠ 0)) ∧
      ∀ i j, callSum c1 i j = callSum c2 i j := by
  obtain ⟨c1, a1, p1, -⟩ := C23_hoppings cast s mods gs b1 shift h E N hok posAt hpos hb1 hch
  obtain ⟨c2, a2, p2, -⟩ := C23_hoppings cast s mods gs b2 shift h E N hok posAt hpos hb2 hch
  have hp := p1.trans p2.symm
  refine ⟨c1, c2, a1, a2, hp, ?_⟩
  have hz : ∀ (cs : List (Call K)) (i j : Int), callSum (cs.filter (fun c => c.2.2 ≠ 0)) i j = callSum cs i j := by
    intro cs i j
    induction cs with
    | nil => rfl
    | cons c cs ih =>
      rw [List.filter_cons]
      split
      · rw [callSum_cons, callSum_cons, ih]
      · rename_i hc
        have hc0 : c.2.2 = 0 := by simpa using hc
        rw [callSum_cons, ih, hc0]
        simp
  intro i j
  rw [← hz c1, ← hz c2]
  exact callSum_perm hp i j

/-! ## C22 -/

/-- Specification: no site is bonded to itself and no two sites are bonded twice. -/
def SimpleBonds (h : HoppingBlocks) : Prop :=
  (∀ c ∈ h.blocks.flatten, c.row ≠ c.col) ∧
  ∀ a b, h.blocks.flatten.countP (fun c => c = ⟨a, b⟩ ∨ c = ⟨b, a⟩) ≤ 1

/-- The reversed pair. -/
def swapCoo (c : COO) : COO := ⟨c.col, c.row⟩

/-- All pairs of sites whose blocks are filled: the diagonal ones, the hoppings, and their reverses. -/
def allPairs (n : Nat) (hops : List COO) : List COO := diagPairs n ++ (hops ++ hops.map swapCoo)

theorem nodup_of_count {α : Type} [DecidableEq α] {l : List α} (h : ∀ a, l.count a ≤ 1) : l.Nodup :=
  List.nodup_iff_count_le_one.2 h

theorem allPairs_nodup (n : Nat) (h : HoppingBlocks) (hb : SimpleBonds h) :
    (allPairs n h.blocks.flatten).Nodup := by
  obtain ⟨h1, h2⟩ := hb
  generalize h.blocks.flatten = hops at *
  have hc : ∀ c : COO, hops.count c + (hops.map swapCoo).count c ≤ 1 := by
    intro c
    by_cases hcc : c.row = c.col
    · have e1 : hops.count c = 0 := List.count_eq_zero.2 fun hm => h1 c hm hcc
      have e2 : (hops.map swapCoo).count c = 0 := List.count_eq_zero.2 fun hm => by
        obtain ⟨d, hd, rfl⟩ := List.mem_map.1 hm
        exact h1 d hd (by simpa [swapCoo] using hcc.symm)
      omega
    · have e2 : (hops.map swapCoo).count c = hops.count (swapCoo c) := by
        rw [List.count_eq_countP, List.countP_map, List.count_eq_countP]
        apply List.countP_congr
        intro d _
        obtain ⟨a, b⟩ := c
        obtain ⟨x, y⟩ := d
        simp only [swapCoo, Function.comp_apply, beq_iff_eq, COO.mk.injEq]
        omega
      rw [e2]
      have := h2 c.row c.col
      have e3 : hops.countP (fun d => decide (d = ⟨c.row, c.col⟩ ∨ d = ⟨c.col, c.row⟩))
          = hops.count c + hops.count (swapCoo c) := by
        clear this e2 h1 h2
        induction hops with
        | nil => rfl
        | cons d hops ih =>
          rw [List.countP_cons, List.count_cons, List.count_cons, ih]
          obtain ⟨a, b⟩ := c
          obtain ⟨x, y⟩ := d
          simp only [swapCoo, beq_iff_eq, COO.mk.injEq, decide_eq_true_eq] at hcc ⊢
          split <;> split <;> split <;> omega
      omega
  unfold allPairs
  rw [List.nodup_append]
  refine ⟨?_, ?_, ?_⟩
  · unfold diagPairs
    refine List.Nodup.map_on ?_ List.nodup_range
    intro x _ y _ e
    exact (COO.mk.injEq .. ▸ e).1
  · apply nodup_of_count
    intro c
    rw [List.count_append]
    exact hc c
  · intro c hcd d hd e
    subst e
    obtain ⟨k, -, rfl⟩ := List.mem_map.1 hcd
    rcases List.mem_append.1 hd with hm | hm
    · exact h1 _ hm rfl
    · obtain ⟨d, hd', e⟩ := List.mem_map.1 hm
      have := h1 d hd'
      unfold swapCoo at e
      rw [COO.mk.injEq] at e
      omega

theorem swap_box (norbs : List Nat) (c : COO) :
    ((box norbs c).map Prod.swap).Perm (box norbs (swapCoo c)) := by
  unfold box
  rw [List.map_flatMap]
  simp only [List.map_map]
  have e : ∀ (l : List Nat) (f : Nat → Int × Int), l.map f = l.flatMap fun j => [f j] :=
    fun l f => (flatMap_single l f).symm
  simp only [e]
  refine (flatMap_comm_perm _ _ _).trans (List.Perm.of_eq ?_)
  rfl

theorem withConjugate_perm [Star K] (calls : List (Call K)) :
    ((withConjugate calls).map pos).Perm (calls.map pos ++ (calls.map pos).map Prod.swap) := by
  unfold withConjugate
  rw [List.map_flatMap, List.map_map, ← flatMap_single calls pos, ← flatMap_single calls (Prod.swap ∘ pos)]
  exact flatMap_append_perm' calls (fun c => [pos c]) (fun c => [(Prod.swap ∘ pos) c])

/-- The positions of all calls of the main build. -/
theorem main_places [Zero C] [DecidableEq C] [Zero K] [DecidableEq K] [Star K] [Sub P] (cast : C → K)
    (s : System C P) (mods : Modifiers K P) (maxBuffer : Nat) (E : Nat → Mat C) (N : Nat → String)
    (hok : HopOK s s.hoppings E N) (onsite hop : List (Call K)) (ho : applyToOnsite cast s mods = .ok onsite)
    (hh : applyToHoppings cast s mods maxBuffer none s.hoppings = .ok hop) :
    ((onsite ++ withConjugate hop).map pos).Subperm
      ((allPairs (tableNorbs s.sublattices).length s.hoppings.blocks.flatten).flatMap
        (box (tableNorbs s.sublattices))) := by
  have h1 := applyToOnsite_places cast s mods onsite ho
  have h2 := applyToHoppings_places cast s mods maxBuffer none s.hoppings E N hok hop hh
  unfold allPairs
  rw [List.map_append, List.flatMap_append, List.flatMap_append]
  refine h1.append ?_
  refine (withConjugate_perm hop).subperm.trans (h2.append ?_)
  refine (h2.map Prod.swap_injective).trans ?_
  rw [List.map_flatMap, List.flatMap_map]
  exact (flatMap_perm_congr _ _ _ fun c _ => swap_box _ c).subperm

/-- Inserting the calls succeeds and gives the same matrix as adding them up. -/
theorem main_insert [Zero C] [DecidableEq C] [Zero K] [DecidableEq K] [Star K] [Add K] [Sub P] (cast : C → K)
    (s : System C P) (mods : Modifiers K P) (maxBuffer : Nat) (E : Nat → Mat C) (N : Nat → String)
    (hok : HopOK s s.hoppings E N) (hb : SimpleBonds s.hoppings) (onsite hop : List (Call K))
    (ho : applyToOnsite cast s mods = .ok onsite)
    (hh : applyToHoppings cast s mods maxBuffer none s.hoppings = .ok hop) :
    ∃ m, insertAll (Sublat.hamiltonianSize s.sublattices) (onsite ++ withConjugate hop)
        (List.replicate (Sublat.hamiltonianSize s.sublattices) []) = .ok m ∧
      addAll (Sublat.hamiltonianSize s.sublattices) (onsite ++ withConjugate hop)
        (List.replicate (Sublat.hamiltonianSize s.sublattices) []) = .ok m ∧
      ∀ k i, i < (tableNorbs s.sublattices).getD k 0 →
        (m.getD (firstRow (tableNorbs s.sublattices) k + i) []).length
          ≤ ((allPairs (tableNorbs s.sublattices).length s.hoppings.blocks.flatten).map fun c =>
              if c.row = k then (tableNorbs s.sublattices).getD c.col 0 else 0).sum := by
  have hp := main_places cast s mods maxBuffer E N hok onsite hop ho hh
  have hnd := boxes_nodup (tableNorbs s.sublattices) _
    (allPairs_nodup (tableNorbs s.sublattices).length s.hoppings hb)
  have hnd' : ((onsite ++ withConjugate hop).map pos).Nodup := by
    obtain ⟨l, hl, hs⟩ := hp
    exact hl.nodup_iff.1 (hnd.sublist hs)
  obtain ⟨m, e1, -, -, e4⟩ := insertAll_fresh (n := Sublat.hamiltonianSize s.sublattices)
    (onsite ++ withConjugate hop) (m := List.replicate (Sublat.hamiltonianSize s.sublattices) [])
    (by simp) (by
      intro c hc
      have hm := hp.subset (List.mem_map.2 ⟨c, hc, rfl⟩)
      obtain ⟨d, -, hd⟩ := List.mem_flatMap.1 hm
      have := box_range hd
      rw [Sublat.hamiltonianSize_eq]
      exact this) hnd' (fun c _ => not_stored_zero _ _ _)
  refine ⟨m, e1, insertAll_addAll e1, ?_⟩
  intro k i hi
  rw [e4]
  have hz : ((List.replicate (Sublat.hamiltonianSize s.sublattices) ([] : List (Nat × K))).getD
      (firstRow (tableNorbs s.sublattices) k + i) []).length = 0 := by
    rw [List.getD_eq_getElem?_getD, List.getElem?_replicate]
    split <;> rfl
  rw [hz, Nat.zero_add]
  have hcnt := hp.countP_le (fun p => decide (p.1 = ((firstRow (tableNorbs s.sublattices) k + i : Nat) : Int)))
  rw [List.countP_map, List.countP_flatMap] at hcnt
  refine Nat.le_trans hcnt (Nat.le_of_eq ?_)
  congr 1
  apply List.map_congr_left
  intro c _
  exact box_row (tableNorbs s.sublattices) c k i hi

theorem onsite_insert [Zero C] [DecidableEq C] [Zero K] [DecidableEq K] (cast : C → K)
    (s : System C P) (mods : Modifiers K P) (onsite : List (Call K))
    (ho : applyToOnsite cast s mods = .ok onsite) :
    ∃ m, insertAll (Sublat.hamiltonianSize s.sublattices) onsite
        (List.replicate (Sublat.hamiltonianSize s.sublattices) []) = .ok m := by
  have hp := applyToOnsite_places cast s mods onsite ho
  have hdn : (diagPairs (tableNorbs s.sublattices).length).Nodup := by
    unfold diagPairs
    refine List.Nodup.map_on ?_ List.nodup_range
    intro x _ y _ e
    exact (COO.mk.injEq .. ▸ e).1
  have hnd' : (onsite.map pos).Nodup := by
    obtain ⟨l, hl, hs⟩ := hp
    exact hl.nodup_iff.1 ((boxes_nodup (tableNorbs s.sublattices) _ hdn).sublist hs)
  obtain ⟨m, e1, -⟩ := insertAll_fresh (n := Sublat.hamiltonianSize s.sublattices)
    onsite (m := List.replicate (Sublat.hamiltonianSize s.sublattices) [])
    (by simp) (by
      intro c hc
      have hm := hp.subset (List.mem_map.2 ⟨c, hc, rfl⟩)
      obtain ⟨d, -, hd⟩ := List.mem_flatMap.1 hm
      have := box_range hd
      rw [Sublat.hamiltonianSize_eq]
      exact this) hnd' (fun c _ => not_stored_zero _ _ _)
  exact ⟨m, e1⟩

/-- **C22**: the insertion path and the triplet path have the same outcome: the same matrix, or the
same exception of a modifier.  In particular inserting never meets an element that exists already. -/
theorem C22_build_paths_agree [Zero C] [DecidableEq C] [Zero K] [DecidableEq K] [Star K] [Add K] [Mul K]
    [Sub P] (cast : C → K) (s : System C P) (mods : Modifiers K P) (maxBuffer : Nat) (phase : P → K)
    (E : Nat → Mat C) (N : Nat → String) (hok : HopOK s s.hoppings E N) (hb : SimpleBonds s.hoppings) :
    make cast s mods maxBuffer phase true = make cast s mods maxBuffer phase false := by
  have key : buildMain cast s mods maxBuffer true = buildMain cast s mods maxBuffer false := by
    unfold buildMain
    simp only [if_true, Bool.false_eq_true, if_false]
    rcases ho : applyToOnsite cast s mods with o | _ | _
    · simp only [Res.bind_ok]
      rcases hh : applyToHoppings cast s mods maxBuffer none s.hoppings with hp | e | _
      · obtain ⟨m, e1, e2, -⟩ := main_insert cast s mods maxBuffer E N hok hb o hp ho hh
        simp only [Res.bind_ok]
        rw [e2, ← e1, insertAll_append]
        rfl
      · obtain ⟨m, e1⟩ := onsite_insert cast s mods o ho
        rw [e1]; rfl
      · obtain ⟨m, e1⟩ := onsite_insert cast s mods o ho
        rw [e1]; rfl
    · rfl
    · rfl
  unfold make
  rw [key]

end Verif.Hamiltonian
