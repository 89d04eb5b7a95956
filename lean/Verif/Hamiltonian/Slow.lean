import Verif.Hamiltonian.Translate

/-!
# The buffered loop over the hoppings
-/

namespace Verif.Hamiltonian

open Verif.Sublat (Table It iters itersFrom tableNorbs)
open Verif.Sublat.Spec (firstRow)
open Verif.Hopping (COO HoppingBlocks Csr csrInsert overwrite)
open Verif.Lattice (Registry)

variable {C K P : Type}

/-- Functions applied by element-wise modifiers. -/
abbrev ElemFn (K P : Type) := String → (Nat → Nat → K) → P → P → Nat → Nat → K

/-- The position of the second end: moved by the shift of a boundary. -/
def shiftBy [Sub P] (shift : Option P) (p : P) : P :=
  match shift with
  | some d => p - d
  | none => p

/-- Specification: the non-zero matrix elements of one hopping: element `(i, j)` of its modified
energy at the rows of its first end and the columns of its second end. -/
def hopCalls [Zero C] [Zero K] [DecidableEq K] [Sub P] (cast : C → K) (norbs : List Nat) (posAt : Nat → P)
    (shift : Option P) (gs : List (ElemFn K P)) (m : Mat C) (name : String) (c : COO) : List (Call K) :=
  elemCalls (place norbs c) m.rows m.cols
    (finalEnergy gs name (fun i j => cast (entry m i j)) (posAt c.row) (shiftBy shift (posAt c.col)))

theorem ends_eq [Sub P] (pos : List P) (posAt : Nat → P) (shift : Option P) (coos : List COO)
    (h : ∀ c ∈ coos, pos[c.row]? = some (posAt c.row) ∧ pos[c.col]? = some (posAt c.col)) :
    ends pos shift coos = .ok (coos.map fun c => posAt c.row,
      coos.map fun c => shiftBy shift (posAt c.col)) := by
  induction coos with
  | nil => rfl
  | cons c rest ih =>
    obtain ⟨h1, h2⟩ := h c List.mem_cons_self
    unfold ends
    rw [h1, h2]
    simp only
    rw [ih fun d hd => h d (List.mem_cons_of_mem _ hd)]
    simp only [Res.bind_ok, Res.pure_eq, List.map_cons]
    cases shift <;> rfl

theorem hoppingSlice_spec [Zero C] [Zero K] [DecidableEq K] [Sub P] (cast : C → K) (s : System C P)
    (mods : List (HoppingModifier K P)) (gs : List (ElemFn K P)) (shift : Option P) (m : Mat C)
    (name : String) (posAt : Nat → P) (tr : Translator) (htr1 : tr.rows = m.rows) (htr2 : tr.cols = m.cols)
    (htr : ∀ c, Fits (tableNorbs s.sublattices) m c → ∀ i j : Nat,
        ((tr.hamRow + i : Int) + ((c.row : Int) - tr.sysRow) * tr.rows,
          (tr.hamCol + j : Int) + ((c.col : Int) - tr.sysCol) * tr.cols)
            = place (tableNorbs s.sublattices) c i j)
    (hch : Chain m.rows m.cols mods gs)
    (coos : List COO) (hf : ∀ c ∈ coos, Fits (tableNorbs s.sublattices) m c)
    (hpos : ∀ c ∈ coos, s.positions[c.row]? = some (posAt c.row) ∧ s.positions[c.col]? = some (posAt c.col)) :
    ∃ calls, hoppingSlice s mods shift ((flat m).map cast) name tr coos = .ok calls ∧
      calls.Perm (coos.flatMap (hopCalls cast (tableNorbs s.sublattices) posAt shift gs m name)) := by
  unfold hoppingSlice
  rw [ends_eq s.positions posAt shift coos hpos]
  simp only [Res.bind_ok]
  rw [unit_layout]
  rw [runHopping_chain m.rows m.cols mods gs hch name _ _ _ (by simp) (by simp)]
  simp only [Res.bind_ok, Res.pure_eq]
  refine ⟨_, rfl, ?_⟩
  have hidx : tr.indices coos = (List.range m.rows).flatMap fun i => (List.range m.cols).flatMap fun j =>
      coos.map fun c => place (tableNorbs s.sublattices) c i j := by
    unfold Translator.indices
    rw [htr1, htr2]
    congr 1; funext i
    congr 1; funext j
    apply List.map_congr_left
    intro c hc
    have := htr c (hf c hc) i j
    rw [htr1, htr2] at this
    exact this
  rw [hidx]
  have hz : ((List.replicate coos.length fun i j => cast (entry m i j)).zip
      ((coos.map fun c => posAt c.row).zip (coos.map fun c => shiftBy shift (posAt c.col)))).map
      (fun x => finalEnergy gs name x.1 x.2.1 x.2.2)
      = coos.map fun c => finalEnergy gs name (fun i j => cast (entry m i j)) (posAt c.row)
          (shiftBy shift (posAt c.col)) := by
    clear hidx hf hpos
    induction coos with
    | nil => rfl
    | cons c coos ih => simp only [List.length_cons, List.replicate_succ, List.map_cons, List.zip_cons_cons, ih]
  rw [hz]
  refine (emit_layout_perm m.rows m.cols (fun i j c => place (tableNorbs s.sublattices) c i j) coos _
    (by simp)).trans ?_
  clear hidx hf hpos hz
  have : ∀ l : List COO, ((l.zip (l.map fun c => finalEnergy gs name (fun i j => cast (entry m i j)) (posAt c.row)
          (shiftBy shift (posAt c.col)))).flatMap fun p =>
            elemCalls (fun i j => place (tableNorbs s.sublattices) p.1 i j) m.rows m.cols p.2)
      = l.flatMap (hopCalls cast (tableNorbs s.sublattices) posAt shift gs m name) := by
    intro l
    induction l with
    | nil => rfl
    | cons c l ih => simp only [List.map_cons, List.zip_cons_cons, List.flatMap_cons, ih]; rfl
  rw [this]

theorem hoppingSlices_spec [Zero C] [Zero K] [DecidableEq K] [Sub P] (cast : C → K) (s : System C P)
    (mods : List (HoppingModifier K P)) (gs : List (ElemFn K P)) (shift : Option P) (m : Mat C)
    (name : String) (posAt : Nat → P) (tr : Translator) (htr1 : tr.rows = m.rows) (htr2 : tr.cols = m.cols)
    (htr : ∀ c, Fits (tableNorbs s.sublattices) m c → ∀ i j : Nat,
        ((tr.hamRow + i : Int) + ((c.row : Int) - tr.sysRow) * tr.rows,
          (tr.hamCol + j : Int) + ((c.col : Int) - tr.sysCol) * tr.cols)
            = place (tableNorbs s.sublattices) c i j)
    (hch : Chain m.rows m.cols mods gs)
    (ss : List (List COO)) (hf : ∀ c ∈ ss.flatten, Fits (tableNorbs s.sublattices) m c)
    (hpos : ∀ c ∈ ss.flatten, s.positions[c.row]? = some (posAt c.row) ∧ s.positions[c.col]? = some (posAt c.col)) :
    ∃ calls, hoppingSlices s mods shift ((flat m).map cast) name tr ss = .ok calls ∧
      calls.Perm (ss.flatten.flatMap (hopCalls cast (tableNorbs s.sublattices) posAt shift gs m name)) := by
  induction ss with
  | nil => exact ⟨[], rfl, by simp⟩
  | cons coos ss ih =>
    obtain ⟨a, ha, pa⟩ := hoppingSlice_spec cast s mods gs shift m name posAt tr htr1 htr2 htr hch coos
      (fun c hc => hf c (by simp [hc])) (fun c hc => hpos c (by simp [hc]))
    obtain ⟨b, hb, pb⟩ := ih (fun c hc => hf c (by rw [List.flatten_cons]; exact List.mem_append_right _ hc))
      (fun c hc => hpos c (by rw [List.flatten_cons]; exact List.mem_append_right _ hc))
    refine ⟨a ++ b, ?_, ?_⟩
    · simp only [hoppingSlices, ha, hb, Res.bind_ok, Res.pure_eq]
    · rw [List.flatten_cons, List.flatMap_append]
      exact pa.append pb

/-- One block on the slow path. -/
theorem slowBlock_spec [Zero C] [Zero K] [DecidableEq K] [Sub P] (cast : C → K) (s : System C P)
    (mods : List (HoppingModifier K P)) (gs : List (ElemFn K P)) (maxBuffer : Nat) (shift : Option P)
    (m : Mat C) (name : String) (posAt : Nat → P) (fam : Nat)
    (hs : (s.sublattices.map (·.numOrb)).Pairwise (· ≤ ·))
    (hp : ∀ n ∈ tableNorbs s.sublattices, 0 < n)
    (hm : s.hoppingRegistry.energy fam = .ok m) (hn : s.hoppingRegistry.name fam = .ok name)
    (hbuf : m.size ≤ maxBuffer) (hch : Chain m.rows m.cols mods gs)
    (block : List COO) (hf : ∀ c ∈ block, Fits (tableNorbs s.sublattices) m c)
    (hpos : ∀ c ∈ block, s.positions[c.row]? = some (posAt c.row) ∧ s.positions[c.col]? = some (posAt c.col)) :
    ∃ calls, slowBlock cast s mods maxBuffer shift fam block = .ok calls ∧
      calls.Perm (block.flatMap (hopCalls cast (tableNorbs s.sublattices) posAt shift gs m name)) := by
  unfold slowBlock
  cases block with
  | nil => exact ⟨[], rfl, by simp⟩
  | cons c0 rest =>
    have hf0 := hf c0 List.mem_cons_self
    have hr : 0 < m.rows := hp _ (List.mem_of_getElem? hf0.1)
    have hc : 0 < m.cols := hp _ (List.mem_of_getElem? hf0.2)
    have hsz : 0 < m.size := Nat.mul_pos hr hc
    obtain ⟨tr, e1, e2, e3, e4⟩ := translator_spec s.sublattices hs m hr hc (c0 :: rest) (by simp) hf
    have hdiv : 0 < maxBuffer / m.size := Nat.div_pos hbuf hsz
    simp only [List.isEmpty_cons, Bool.false_eq_true, if_false, hm, hn, e1, Res.bind_ok]
    rw [if_neg (by omega)]
    have hstep : 0 < min (maxBuffer / m.size) (c0 :: rest).length := by
      rw [Nat.lt_min]; exact ⟨hdiv, by simp⟩
    rw [if_neg (by omega)]
    have hfl := sliced_flatten _ hstep (c0 :: rest).length (c0 :: rest) (Nat.le_refl _)
    obtain ⟨calls, g1, g2⟩ := hoppingSlices_spec cast s mods gs shift m name posAt tr e2 e3 e4 hch
      (sliced (min (maxBuffer / m.size) (c0 :: rest).length) (c0 :: rest).length (c0 :: rest))
      (by rw [hfl]; exact hf) (by rw [hfl]; exact hpos)
    rw [hfl] at g2
    exact ⟨calls, g1, g2⟩

/-- With single-orbital sites in front, the first row of a single-orbital site is its index. -/
theorem firstRow_single (t : Table) (hs : (t.map (·.numOrb)).Pairwise (· ≤ ·))
    (hp : ∀ n ∈ tableNorbs t, 0 < n) (k : Nat) (hk : (tableNorbs t)[k]? = some 1) :
    firstRow (tableNorbs t) k = k := by
  unfold firstRow
  have hsort := tableNorbs_sorted t hs
  have hlt := (List.getElem?_eq_some_iff.1 hk).1
  rw [take_const_sum _ 1 k, Nat.mul_one]
  intro i hi
  have hil : i < (tableNorbs t).length := by omega
  have h1 := hp _ (List.getElem_mem hil)
  have h2 := List.pairwise_iff_getElem.1 hsort i k hil hlt hi
  have h3 := (List.getElem?_eq_some_iff.1 hk).2
  rw [List.getElem?_eq_getElem hil, Option.some.injEq]
  omega

theorem mat_one {m : Mat C} (h : m.size = 1) : m.rows = 1 ∧ m.cols = 1 := by
  unfold Mat.size at h
  exact ⟨Nat.eq_one_of_mul_eq_one_right h, Nat.eq_one_of_mul_eq_one_left h⟩

/-- One block on the fast path: the same calls, with zero values kept. -/
theorem fastBlock_spec [Zero C] [Zero K] [DecidableEq K] [Sub P] (cast : C → K) (s : System C P)
    (shift : Option P) (m : Mat C) (name : String) (posAt : Nat → P) (fam : Nat)
    (hs : (s.sublattices.map (·.numOrb)).Pairwise (· ≤ ·))
    (hp : ∀ n ∈ tableNorbs s.sublattices, 0 < n)
    (hm : s.hoppingRegistry.energy fam = .ok m) (h1 : m.size = 1)
    (block : List COO) (hf : ∀ c ∈ block, Fits (tableNorbs s.sublattices) m c) :
    ∃ calls, fastBlock cast s fam block = .ok calls ∧
      calls = block.map (fun c => ((c.row : Int), (c.col : Int), cast (entry m 0 0))) ∧
      calls.filter (fun c => c.2.2 ≠ 0)
        = block.flatMap (hopCalls cast (tableNorbs s.sublattices) posAt shift [] m name) := by
  obtain ⟨hr, hc⟩ := mat_one h1
  have hflat : (flat m).head? = some (entry m 0 0) := by
    rw [flat_eq, hr, hc]
    simp
  refine ⟨block.map fun c => ((c.row : Int), (c.col : Int), cast (entry m 0 0)), ?_, rfl, ?_⟩
  · unfold fastBlock
    rw [hm]
    simp only [Res.bind_ok, hflat, Res.pure_eq]
  · induction block with
    | nil => rfl
    | cons c block ih =>
      have hfc := hf c List.mem_cons_self
      rw [List.map_cons, List.flatMap_cons, List.filter_cons,
        ih fun d hd => hf d (List.mem_cons_of_mem _ hd)]
      have hk1 := firstRow_single s.sublattices hs hp c.row (by rw [hfc.1, hr])
      have hk2 := firstRow_single s.sublattices hs hp c.col (by rw [hfc.2, hc])
      unfold hopCalls elemCalls place finalEnergy
      rw [hr, hc, hk1, hk2]
      by_cases hz : cast (entry m 0 0) = 0 <;> simp [hz]

/-- The loop over the blocks. -/
theorem blockLoop_spec [Zero K] [DecidableEq K] (f : Nat → List COO → Res (List (Call K))) (spec : Nat → List COO → List (Call K))
    (fam : Nat) (bs : List (List COO))
    (h : ∀ (i : Nat) b, bs[i]? = some b → ∃ calls, f (fam + i) b = .ok calls ∧
      (calls.filter (fun c => c.2.2 ≠ 0)).Perm (spec (fam + i) b)) :
    ∃ calls, blockLoop f fam bs = .ok calls ∧
      (calls.filter (fun c => c.2.2 ≠ 0)).Perm ((bs.zipIdx fam).flatMap fun p => spec p.2 p.1) := by
  induction bs generalizing fam with
  | nil => exact ⟨[], rfl, by simp⟩
  | cons b bs ih =>
    obtain ⟨a, ha, pa⟩ := h 0 b rfl
    obtain ⟨c, hc, pc⟩ := ih (fam + 1) (fun i b hb => by
      have := h (i + 1) b (by simpa using hb)
      rwa [show fam + (i + 1) = fam + 1 + i by omega] at this)
    rw [Nat.add_zero] at ha pa
    refine ⟨a ++ c, ?_, ?_⟩
    · simp only [blockLoop, ha, hc, Res.bind_ok, Res.pure_eq]
    · rw [List.filter_append, List.zipIdx_cons, List.flatMap_cons]
      exact pa.append pc

theorem elemCalls_nonzero [Zero K] [DecidableEq K] (φ : Nat → Nat → Int × Int) (r c : Nat)
    (e : Nat → Nat → K) : ∀ x ∈ elemCalls φ r c e, x.2.2 ≠ 0 := by
  intro x hx
  obtain ⟨i, -, hx⟩ := List.mem_flatMap.1 hx
  obtain ⟨j, -, hx⟩ := List.mem_flatMap.1 hx
  split at hx
  · simp at hx
  · rename_i h
    rw [List.mem_singleton] at hx
    subst hx
    exact h

end Verif.Hamiltonian
