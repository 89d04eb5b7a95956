import Verif.Sublat.Model
import Verif.Sublat.Spec
import Mathlib.Order.Defs.LinearOrder

namespace Verif.Sublat

@[simp] theorem It.sysStart_mk (e : Elem) (s h : Nat) : (It.mk e s h).sysStart = s := rfl
@[simp] theorem It.sysEnd_mk (e : Elem) (s h : Nat) : (It.mk e s h).sysEnd = s + e.numSites := rfl
@[simp] theorem It.hamStart_mk (e : Elem) (s h : Nat) : (It.mk e s h).hamStart = h := rfl
@[simp] theorem It.hamSize_mk (e : Elem) (s h : Nat) :
    (It.mk e s h).hamSize = e.numSites * e.numOrb := rfl

theorem replicate_add {α : Type u} (m n : Nat) (a : α) :
    List.replicate (m + n) a = List.replicate m a ++ List.replicate n a :=
  List.replicate_append_replicate.symm

/-- Labels of all sites described by a table, block by block. -/
def tableLabels (data : Table) : List Int := data.flatMap fun e => List.replicate e.numSites e.id

/-- Orbital counts of all sites described by a table, block by block. -/
def tableNorbs (data : Table) : List Nat := data.flatMap fun e => List.replicate e.numSites e.numOrb

@[simp] theorem tableLabels_cons (e : Elem) (d : Table) :
    tableLabels (e :: d) = List.replicate e.numSites e.id ++ tableLabels d := rfl
@[simp] theorem tableLabels_nil : tableLabels [] = [] := rfl
@[simp] theorem tableNorbs_cons (e : Elem) (d : Table) :
    tableNorbs (e :: d) = List.replicate e.numSites e.numOrb ++ tableNorbs d := rfl
@[simp] theorem tableNorbs_nil : tableNorbs [] = [] := rfl

theorem tableLabels_append (a b : Table) : tableLabels (a ++ b) = tableLabels a ++ tableLabels b := by
  simp [tableLabels]
theorem tableNorbs_append (a b : Table) : tableNorbs (a ++ b) = tableNorbs a ++ tableNorbs b := by
  simp [tableNorbs]

theorem decompressedSize_eq (data : Table) : decompressedSize data = (data.map (·.numSites)).sum := by
  have h : ∀ (d : Table) (n : Nat),
      d.foldl (fun n e => n + e.numSites) n = n + (d.map (·.numSites)).sum := by
    intro d
    induction d with
    | nil => intro n; simp
    | cons e d ih => intro n; simp only [List.foldl_cons, ih, List.map_cons, List.sum_cons]; omega
  simp [decompressedSize, h]

theorem length_tableLabels (data : Table) : (tableLabels data).length = decompressedSize data := by
  rw [decompressedSize_eq]
  induction data with
  | nil => rfl
  | cons e d ih => simp [ih]

theorem length_tableNorbs (data : Table) : (tableNorbs data).length = decompressedSize data := by
  rw [decompressedSize_eq]
  induction data with
  | nil => rfl
  | cons e d ih => simp [ih]

theorem setSegment_append {α : Type u} (pre mid post : List α) (v : α) :
    setSegment (pre ++ mid ++ post) pre.length mid.length v
      = pre ++ List.replicate mid.length v ++ post := by
  apply List.ext_getElem
  · simp [setSegment]
  · intro i h1 h2
    simp only [setSegment, List.getElem_mapIdx]
    by_cases hi : i < pre.length
    · rw [if_neg (by omega)]
      simp [List.getElem_append, hi]
    · by_cases hi2 : i < pre.length + mid.length
      · rw [if_pos (by omega)]
        simp [List.getElem_append, hi]
        intro h; omega
      · rw [if_neg (by omega)]
        have : ¬ (i - pre.length < mid.length) := by omega
        simp [List.getElem_append, hi, this]

/-- Filling consecutive segments of an uninitialised stretch writes the block contents. -/
theorem fold_segments (d : Table) (s h : Nat) (pre post : List (Option Int)) (hp : pre.length = s) :
    (itersFrom s h d).foldl
      (fun arr sub => setSegment arr sub.sysStart sub.elem.numSites (some sub.elem.id))
      (pre ++ List.replicate (d.map (·.numSites)).sum none ++ post)
      = pre ++ (tableLabels d).map some ++ post := by
  induction d generalizing s h pre post with
  | nil => simp [itersFrom]
  | cons e d ih =>
    simp only [itersFrom, List.foldl_cons, It.sysStart_mk]
    have h1 : setSegment
        (pre ++ List.replicate ((e :: d).map (·.numSites)).sum none ++ post) s e.numSites (some e.id)
        = pre ++ List.replicate e.numSites (some e.id)
            ++ (List.replicate (d.map (·.numSites)).sum none) ++ post := by
      have := setSegment_append pre (List.replicate e.numSites none)
        (List.replicate (d.map (·.numSites)).sum none ++ post) (some e.id)
      simp only [List.length_replicate] at this
      rw [hp] at this
      simp only [List.map_cons, List.sum_cons, replicate_add, List.append_assoc] at this ⊢
      exact this
    rw [h1, ih (s + e.numSites) _ (pre ++ List.replicate e.numSites (some e.id)) post (by simp [hp])]
    simp [List.append_assoc]

theorem decompressed_eq (data : Table) : decompressed data = (tableLabels data).map some := by
  have := fold_segments data 0 0 [] [] rfl
  simpa [decompressed, iters, decompressedSize_eq] using this

/-! ### add -/

theorem add_cases (data : Table) (id : Int) (norb count : Nat) :
    (add data id norb count = data ++ [⟨id, count, norb⟩] ∧
        (∀ b, data.getLast? = some b → b.id ≠ id)) ∨
    ∃ pre back, data = pre ++ [back] ∧ back.id = id ∧
      add data id norb count = pre ++ [{ back with numSites := back.numSites + count }] := by
  unfold add
  rcases List.eq_nil_or_concat data with h | ⟨pre, back, h⟩
  · subst h; left; simp
  · subst h
    simp only [List.concat_eq_append, List.getLast?_append, List.getLast?_singleton,
      Option.some_or, List.dropLast_concat]
    by_cases hb : back.id = id
    · right; exact ⟨pre, back, rfl, hb, by simp [hb]⟩
    · left; simp [hb]

theorem tableLabels_add (data : Table) (id : Int) (norb count : Nat) :
    tableLabels (add data id norb count) = tableLabels data ++ List.replicate count id := by
  rcases add_cases data id norb count with ⟨h, -⟩ | ⟨pre, back, h1, h2, h3⟩
  · rw [h, tableLabels_append]; simp
  · rw [h3, h1, tableLabels_append, tableLabels_append]
    simp [← List.replicate_append_replicate, h2]

/-- Run a history of add requests through the model. -/
def runAdds (ops : List Spec.AddOp) : Table :=
  ops.foldl (fun d o => add d o.id o.norb o.count) []

theorem tableLabels_foldl (ops : List Spec.AddOp) (d : Table) :
    tableLabels (ops.foldl (fun d o => add d o.id o.norb o.count) d)
      = tableLabels d ++ Spec.labels ops := by
  induction ops generalizing d with
  | nil => simp [Spec.labels]
  | cons o ops ih => rw [List.foldl_cons, ih, tableLabels_add]; simp [Spec.labels]

theorem tableLabels_runAdds (ops : List Spec.AddOp) :
    tableLabels (runAdds ops) = Spec.labels ops := by
  simp [runAdds, tableLabels_foldl]

/-- If all blocks and all later requests agree on the orbital count per label, the orbital counts of
the sites are recorded correctly. -/
theorem tableNorbs_foldl (f : Int → Nat) (ops : List Spec.AddOp) (d : Table)
    (hd : ∀ e ∈ d, e.numOrb = f e.id) (ho : ∀ o ∈ ops, o.norb = f o.id) :
    tableNorbs (ops.foldl (fun d o => add d o.id o.norb o.count) d)
      = tableNorbs d ++ Spec.norbs ops := by
  induction ops generalizing d with
  | nil => simp [Spec.norbs]
  | cons o ops ih =>
    have ho1 : o.norb = f o.id := ho o (by simp)
    have hnew : (∀ e ∈ add d o.id o.norb o.count, e.numOrb = f e.id) ∧
        tableNorbs (add d o.id o.norb o.count) = tableNorbs d ++ List.replicate o.count o.norb := by
      rcases add_cases d o.id o.norb o.count with ⟨h, -⟩ | ⟨pre, back, h1, h2, h3⟩
      · rw [h]
        constructor
        · intro e he
          rcases List.mem_append.1 he with he | he
          · exact hd e he
          · simp at he; subst he; exact ho1
        · rw [tableNorbs_append]; simp
      · have hb : back.numOrb = f back.id := hd back (by simp [h1])
        rw [h3]
        constructor
        · intro e he
          rcases List.mem_append.1 he with he | he
          · exact hd e (by simp [h1, he])
          · simp at he; subst he; exact hb
        · rw [h1, tableNorbs_append, tableNorbs_append]
          have : back.numOrb = o.norb := by rw [hb, h2, ho1]
          simp [← List.replicate_append_replicate, this]
    rw [List.foldl_cons, ih _ hnew.1 (fun o' h' => ho o' (by simp [h'])), hnew.2]
    simp [Spec.norbs]

theorem consistent_fun (ops : List Spec.AddOp) (h : Spec.Consistent ops) :
    ∃ f : Int → Nat, ∀ o ∈ ops, o.norb = f o.id := by
  refine ⟨fun i => ((ops.find? (fun o => o.id == i)).map (·.norb)).getD 0, ?_⟩
  intro o ho
  have hne : ∃ x, ops.find? (fun x => x.id == o.id) = some x := by
    rcases hq : ops.find? (fun x => x.id == o.id) with _ | x
    · have := List.find?_eq_none.1 hq o ho; simp at this
    · exact ⟨x, hq⟩
  obtain ⟨x, hx⟩ := hne
  have hxm := List.mem_of_find?_eq_some hx
  have hxi : x.id = o.id := by simpa using List.find?_some hx
  simp [hx]
  exact (h x hxm o ho hxi).symm

theorem tableNorbs_runAdds (ops : List Spec.AddOp) (h : Spec.Consistent ops) :
    tableNorbs (runAdds ops) = Spec.norbs ops := by
  obtain ⟨f, hf⟩ := consistent_fun ops h
  simpa [runAdds] using tableNorbs_foldl f ops [] (by simp) hf

/-! ### filter -/

/-- The result of `filter` when the mask is long enough. -/
def filterCore (keep : List Bool) : Nat → Table → Table
  | _, [] => []
  | s, e :: d =>
    { e with numSites := ((keep.drop s).take e.numSites).count true }
      :: filterCore keep (s + e.numSites) d

theorem filter_zip (keep : List Bool) (s h : Nat) (d : Table) :
    List.zipWith (fun (e : Elem) (n : Nat) => { e with numSites := n }) d
      ((itersFrom s h d).map fun sub =>
        (((keep.drop sub.sysStart).take (sub.sysEnd - sub.sysStart)).count true))
      = filterCore keep s d := by
  induction d generalizing s h with
  | nil => rfl
  | cons e d ih =>
    simp only [itersFrom, List.map_cons, List.zipWith_cons_cons, filterCore, It.sysStart_mk, It.sysEnd_mk]
    rw [ih]
    simp

theorem iters_sysEnd_le (d : Table) (s h : Nat) (sub : It) (hm : sub ∈ itersFrom s h d) :
    sub.sysEnd ≤ s + (d.map (·.numSites)).sum := by
  induction d generalizing s h with
  | nil => simp [itersFrom] at hm
  | cons e d ih =>
    simp only [itersFrom, List.mem_cons] at hm
    rcases hm with hm | hm
    · subst hm; simp
    · have := ih _ _ hm; simp; omega

theorem itersFrom_sysStart_ge (d : Table) (s h : Nat) (sub : It) (hm : sub ∈ itersFrom s h d) :
    s ≤ sub.sysStart := by
  induction d generalizing s h with
  | nil => simp [itersFrom] at hm
  | cons e d ih =>
    simp only [itersFrom, List.mem_cons] at hm
    rcases hm with hm | hm
    · subst hm; simp
    · have := ih _ _ hm; omega

theorem filter_ok (data : Table) (keep : List Bool) (h : decompressedSize data ≤ keep.length) :
    filter data keep = .ok (filterCore keep 0 data) := by
  unfold filter
  rw [if_pos]
  · exact congrArg Res.ok (filter_zip keep 0 0 data)
  · rw [List.all_eq_true]
    intro sub hs
    have := iters_sysEnd_le data 0 0 sub hs
    rw [decompressedSize_eq] at h
    simp; omega

theorem tableLabels_filterCore (keep : List Bool) (s : Nat) (d : Table)
    (h : s + (d.map (·.numSites)).sum ≤ keep.length) :
    tableLabels (filterCore keep s d)
      = maskFilter ((keep.drop s).take (d.map (·.numSites)).sum) (tableLabels d) := by
  induction d generalizing s with
  | nil => simp [filterCore]
  | cons e d ih =>
    simp only [List.map_cons, List.sum_cons] at h
    rw [filterCore, tableLabels_cons, ih (s + e.numSites) (by omega)]
    have hsplit : (keep.drop s).take (e.numSites + (d.map (·.numSites)).sum)
        = (keep.drop s).take e.numSites
          ++ (keep.drop (s + e.numSites)).take (d.map (·.numSites)).sum := by
      rw [List.take_add, List.drop_drop]
    simp only [List.map_cons, List.sum_cons, tableLabels_cons]
    rw [hsplit, maskFilter_append _ _ _ _ (by simp; omega),
      maskFilter_replicate _ _ _ (by simp; omega)]

theorem tableNorbs_filterCore (keep : List Bool) (s : Nat) (d : Table)
    (h : s + (d.map (·.numSites)).sum ≤ keep.length) :
    tableNorbs (filterCore keep s d)
      = maskFilter ((keep.drop s).take (d.map (·.numSites)).sum) (tableNorbs d) := by
  induction d generalizing s with
  | nil => simp [filterCore]
  | cons e d ih =>
    simp only [List.map_cons, List.sum_cons] at h
    rw [filterCore, tableNorbs_cons, ih (s + e.numSites) (by omega)]
    have hsplit : (keep.drop s).take (e.numSites + (d.map (·.numSites)).sum)
        = (keep.drop s).take e.numSites
          ++ (keep.drop (s + e.numSites)).take (d.map (·.numSites)).sum := by
      rw [List.take_add, List.drop_drop]
    simp only [List.map_cons, List.sum_cons, tableNorbs_cons]
    rw [hsplit, maskFilter_append _ _ _ _ (by simp; omega),
      maskFilter_replicate _ _ _ (by simp; omega)]

theorem maskFilter_combine {α : Type u} (k₁ k₂ : List Bool) (xs : List α) :
    maskFilter k₂ (maskFilter k₁ xs) = maskFilter (Spec.combine k₁ k₂) xs := by
  induction k₁ generalizing k₂ xs with
  | nil => simp [Spec.combine]
  | cons k ks ih =>
    cases xs with
    | nil => simp
    | cons x xs =>
      cases k with
      | false => simp [Spec.combine, maskFilter, ih]
      | true =>
        cases k₂ with
        | nil => simp [Spec.combine, maskFilter, ← ih]
        | cons m ms => cases m <;> simp [Spec.combine, maskFilter, ih]

theorem length_maskFilter_eq {α : Type u} (ks : List Bool) (xs : List α)
    (h : ks.length = xs.length) : (maskFilter ks xs).length = ks.count true := by
  induction ks generalizing xs with
  | nil => simp
  | cons k ks ih =>
    cases xs with
    | nil => simp at h
    | cons x xs =>
      have := ih xs (by simpa using h)
      cases k <;> simp [maskFilter, this]

/-! ### Hamiltonian indices -/

theorem sum_tableNorbs (d : Table) :
    (tableNorbs d).sum = (d.map fun e => e.numSites * e.numOrb).sum := by
  induction d with
  | nil => rfl
  | cons e d ih => simp [ih]

theorem hamiltonianSize_eq (d : Table) : hamiltonianSize d = (tableNorbs d).sum := by
  have h : ∀ (d : Table) (s h n : Nat),
      (itersFrom s h d).foldl (fun r sub => r + sub.hamSize) n
        = n + (d.map fun e => e.numSites * e.numOrb).sum := by
    intro d
    induction d with
    | nil => intro s h n; simp [itersFrom]
    | cons e d ih =>
      intro s h n
      simp only [itersFrom, List.foldl_cons, ih, List.map_cons, List.sum_cons, It.hamSize_mk]
      omega
  rw [hamiltonianSize, iters, h, sum_tableNorbs]; simp

theorem find_site (d : Table) (s h i : Nat) (hs : s ≤ i) (hi : i < s + (tableNorbs d).length) :
    ∃ sub, (itersFrom s h d).find? (fun sub => decide (sub.sysStart ≤ i ∧ i < sub.sysEnd)) = some sub
      ∧ (tableNorbs d)[i - s]? = some sub.elem.numOrb
      ∧ sub.hamStart + (i - sub.sysStart) * sub.elem.numOrb
          = h + ((tableNorbs d).take (i - s)).sum := by
  induction d generalizing s h with
  | nil => simp at hi; omega
  | cons e d ih =>
    by_cases hlt : i < s + e.numSites
    · refine ⟨⟨e, s, h⟩, ?_, ?_, ?_⟩
      · simp only [itersFrom]
        rw [List.find?_cons_of_pos]
        exact decide_eq_true (And.intro hs hlt)
      · have hl : i - s < (List.replicate e.numSites e.numOrb).length := by
          rw [List.length_replicate]; omega
        rw [tableNorbs_cons, List.getElem?_append_left hl, List.getElem?_eq_getElem hl]; simp
      · rw [tableNorbs_cons, List.take_append_of_le_length (by simp; omega), List.take_replicate,
          Nat.min_eq_left (by omega)]
        simp
    · simp only [tableNorbs_cons, List.length_append, List.length_replicate] at hi
      obtain ⟨sub, h1, h2, h3⟩ := ih (s + e.numSites) (h + e.numSites * e.numOrb) (by omega) (by omega)
      refine ⟨sub, ?_, ?_, ?_⟩
      · simp only [itersFrom]
        rw [List.find?_cons_of_neg]
        · exact h1
        · intro hc
          exact hlt (of_decide_eq_true hc).2
      · rw [tableNorbs_cons, List.getElem?_append_right (by rw [List.length_replicate]; omega)]
        simp only [List.length_replicate]
        rw [show i - s - e.numSites = i - (s + e.numSites) by omega]; exact h2
      · rw [h3, tableNorbs_cons, List.take_append]
        simp only [List.length_replicate]
        have hr : (List.replicate e.numSites e.numOrb).take (i - s)
            = List.replicate e.numSites e.numOrb := by
          rw [List.take_replicate, Nat.min_eq_right (by omega)]
        rw [hr]
        simp only [List.sum_append, List.sum_replicate_nat]
        rw [show i - s - e.numSites = i - (s + e.numSites) by omega]
        omega

theorem find_site_none (d : Table) (s h i : Nat) (hi : s + (tableNorbs d).length ≤ i) :
    (itersFrom s h d).find? (fun sub => decide (sub.sysStart ≤ i ∧ i < sub.sysEnd)) = none := by
  rw [List.find?_eq_none]
  intro sub hs
  have := iters_sysEnd_le d s h sub hs
  rw [length_tableNorbs, decompressedSize_eq] at hi
  simp; omega

/-- Consecutive rows of all sites, concatenated, are all rows. -/
theorem rows_tile (ns : List Nat) (base : Nat) :
    (List.range ns.length).flatMap (fun i => (List.range' (base + (ns.take i).sum) (ns[i]?.getD 0)))
      = List.range' base ns.sum := by
  induction ns generalizing base with
  | nil => simp
  | cons n ns ih =>
    rw [List.length_cons, List.range_succ_eq_map, List.flatMap_cons, List.flatMap_map]
    simp only [List.take_zero, List.sum_nil, Nat.add_zero, List.getElem?_cons_zero, Option.getD_some,
      List.take_succ_cons, List.sum_cons, List.getElem?_cons_succ]
    have := ih (base + n)
    simp only [Nat.add_assoc] at this
    rw [this, List.range'_append_1]

theorem range_map_add (a n : Nat) : (List.range n).map (fun k => a + k) = List.range' a n := by
  rw [List.range'_eq_map_range]

/-! ### expanded positions -/

theorem expandSites_eq {α : Type u} (pos : List α) (norb k i n : Nat) (pre post : List (Option α))
    (hp : pre.length = n) (hpos : i + k ≤ pos.length) :
    expandSites pos norb k i n (pre ++ List.replicate (k * norb) none ++ post)
      = pre ++ ((pos.drop i).take k).flatMap (fun x => List.replicate norb (some x)) ++ post := by
  induction k generalizing i n pre with
  | zero => simp [expandSites]
  | succ k ih =>
    rw [expandSites]
    have hrep : List.replicate ((k + 1) * norb) (none : Option α)
        = List.replicate norb none ++ List.replicate (k * norb) none := by
      rw [List.replicate_append_replicate, Nat.succ_mul, Nat.add_comm]
    have h1 := setSegment_append pre (List.replicate norb (none : Option α))
      (List.replicate (k * norb) none ++ post) pos[i]?
    simp only [List.length_replicate] at h1
    rw [hp] at h1
    rw [hrep]
    rw [show pre ++ (List.replicate norb none ++ List.replicate (k * norb) none) ++ post
        = pre ++ List.replicate norb none ++ (List.replicate (k * norb) none ++ post) by
      simp only [List.append_assoc], h1]
    rw [show pre ++ List.replicate norb pos[i]? ++ (List.replicate (k * norb) none ++ post)
        = (pre ++ List.replicate norb pos[i]?) ++ List.replicate (k * norb) none ++ post by
      simp only [List.append_assoc]]
    rw [ih (i + 1) (n + norb) (pre ++ List.replicate norb pos[i]?) (by simp [hp]) (by omega)]
    have hlt : i < pos.length := by omega
    rw [List.drop_eq_getElem_cons hlt, List.take_succ_cons, List.flatMap_cons,
      List.getElem?_eq_getElem hlt]
    simp [List.append_assoc]

theorem fold_expand {α : Type u} (pos : List α) (d : Table) (s h : Nat) (pre post : List (Option α))
    (hp : pre.length = h) (hpos : s + (d.map (·.numSites)).sum ≤ pos.length) :
    (itersFrom s h d).foldl
      (fun ep sub => expandSites pos sub.elem.numOrb sub.elem.numSites sub.sysStart sub.hamStart ep)
      (pre ++ List.replicate (d.map fun e => e.numSites * e.numOrb).sum none ++ post)
      = pre ++ (((pos.drop s).zip (tableNorbs d)).flatMap
          (fun p => List.replicate p.2 (some p.1))) ++ post := by
  induction d generalizing s h pre with
  | nil => simp [itersFrom]
  | cons e d ih =>
    simp only [List.map_cons, List.sum_cons] at hpos
    simp only [itersFrom, List.foldl_cons, It.sysStart_mk, It.hamStart_mk]
    have h1 := expandSites_eq pos e.numOrb e.numSites s h pre
      (List.replicate (d.map fun e => e.numSites * e.numOrb).sum none ++ post) hp (by omega)
    rw [show pre ++ List.replicate ((e :: d).map fun e => e.numSites * e.numOrb).sum none ++ post
        = pre ++ List.replicate (e.numSites * e.numOrb) none
          ++ (List.replicate (d.map fun e => e.numSites * e.numOrb).sum none ++ post) by
      simp only [List.map_cons, List.sum_cons, replicate_add, List.append_assoc], h1]
    rw [← List.append_assoc]
    rw [ih (s + e.numSites) (h + e.numSites * e.numOrb) _ ?_ (by omega)]
    · have hz : (pos.drop s).zip (tableNorbs (e :: d))
          = ((pos.drop s).take e.numSites).zip (List.replicate e.numSites e.numOrb)
            ++ (pos.drop (s + e.numSites)).zip (tableNorbs d) := by
        rw [tableNorbs_cons, ← List.zip_append (by simp; omega), ← List.drop_drop,
          List.take_append_drop]
      rw [hz, List.flatMap_append]
      have hzz : (((pos.drop s).take e.numSites).zip (List.replicate e.numSites e.numOrb)).flatMap
          (fun p => List.replicate p.2 (some p.1))
          = ((pos.drop s).take e.numSites).flatMap (fun x => List.replicate e.numOrb (some x)) := by
        have key : ∀ (l : List α) (n : Nat), l.length = n →
            (l.zip (List.replicate n e.numOrb)).flatMap (fun p => List.replicate p.2 (some p.1))
              = l.flatMap (fun x => List.replicate e.numOrb (some x)) := by
          intro l
          induction l with
          | nil => intro n _; simp
          | cons x l ih2 =>
            intro n hn
            subst hn
            simp [List.replicate_succ, ih2 _ rfl]
        exact key _ _ (by simp; omega)
      rw [hzz]; simp [List.append_assoc]
    · simp only [List.length_append, hp, List.length_flatMap, List.length_replicate]
      have : ∀ l : List α, (l.map fun _ => e.numOrb).sum = l.length * e.numOrb := by
        intro l; induction l with
        | nil => simp
        | cons x l ih3 => simp [ih3, Nat.succ_mul, Nat.add_comm]
      rw [this, List.length_take, List.length_drop, Nat.min_eq_left (by omega)]

/-! ### verify -/

theorem isSorted_iff (l : List Nat) : isSorted l = true ↔ l.Pairwise (· ≤ ·) := by
  induction l with
  | nil => simp [isSorted]
  | cons x l ih =>
    cases l with
    | nil => simp [isSorted]
    | cons y l =>
      simp only [isSorted, Bool.and_eq_true, decide_eq_true_eq, ih]
      constructor
      · rintro ⟨h1, h2⟩
        refine List.pairwise_cons.2 ⟨?_, h2⟩
        intro z hz
        rcases List.mem_cons.1 hz with h | h
        · omega
        · have := (List.pairwise_cons.1 h2).1 z h; omega
      · intro h
        have := List.pairwise_cons.1 h
        exact ⟨this.1 y (by simp), this.2⟩

theorem length_adjUnique_le {α : Type} [DecidableEq α] (l : List α) :
    (adjUnique l).length ≤ l.length := by
  fun_induction adjUnique l with
  | case1 => simp
  | case2 => simp
  | case3 y rest ih => simp_all; omega
  | case4 x y rest h ih => simp_all

theorem adjUnique_length_iff (l : List Int) (hs : l.Pairwise (· ≤ ·)) :
    (adjUnique l).length = l.length ↔ l.Nodup := by
  fun_induction adjUnique l with
  | case1 => simp
  | case2 => simp
  | case3 y rest ih =>
    have := length_adjUnique_le (y :: rest)
    constructor
    · intro h; simp only [List.length_cons] at *; omega
    · intro h; simp at h
  | case4 x y rest h ih =>
    have hs' := List.pairwise_cons.1 hs
    simp only [List.length_cons, Nat.add_right_cancel_iff] at *
    rw [ih hs'.2]
    constructor
    · intro hn
      refine List.nodup_cons.2 ⟨?_, hn⟩
      intro hx
      have h2 := List.pairwise_cons.1 hs'.2
      rcases List.mem_cons.1 hx with hx | hx
      · exact h hx
      · have h3 := h2.1 x hx
        have h4 := hs'.1 y (by simp)
        omega
    · intro hn; exact (List.nodup_cons.1 hn).2

theorem verify_iff (data : Table) (n : Nat) :
    verify data n = .ok () ↔
      decompressedSize data = n ∧ (data.map (·.id)).Nodup ∧
      (data.map (·.numOrb)).Pairwise (· ≤ ·) := by
  have hperm := List.perm_insertionSort (· ≤ ·) (aliasIds data)
  have hsort' := List.pairwise_insertionSort (· ≤ ·) (aliasIds data)
  have huniq : ((adjUnique ((aliasIds data).insertionSort (· ≤ ·))).length
      == data.length) = true ↔ (data.map (·.id)).Nodup := by
    have h1 := adjUnique_length_iff _ hsort'
    rw [hperm.length_eq, hperm.nodup_iff] at h1
    simp only [beq_iff_eq]
    rw [show data.length = (aliasIds data).length by simp [aliasIds]]
    exact h1
  have hs := isSorted_iff (orbitalCounts data)
  unfold verify
  simp only []
  constructor
  · intro h
    split at h
    · cases h
    · rename_i hc
      have hc1 : decompressedSize data = n := Classical.byContradiction fun hx => hc (Or.inl hx)
      refine ⟨hc1, huniq.1 ?_, hs.1 ?_⟩
      · rcases hb : ((adjUnique ((aliasIds data).insertionSort (· ≤ ·))).length
          == data.length) with _ | _
        · exact absurd (Or.inr (Or.inl hb)) hc
        · rfl
      · rcases hb : isSorted (orbitalCounts data) with _ | _
        · exact absurd (Or.inr (Or.inr hb)) hc
        · rfl
  · rintro ⟨h1, h2, h3⟩
    rw [if_neg]
    rintro (h | h | h)
    · exact h h1
    · rw [huniq.2 h2] at h; cases h
    · rw [hs.2 h3] at h; cases h

/-! ### ranges and nearest site -/

theorem find_block (d : Table) (s h : Nat) (t : Int) (hn : (d.map (·.id)).Nodup) (sub : It)
    (hf : (itersFrom s h d).find? (fun sub => sub.elem.id == t) = some sub) (p : Nat) (hp : s ≤ p) :
    (tableLabels d)[p - s]? = some t ↔ sub.sysStart ≤ p ∧ p < sub.sysEnd := by
  induction d generalizing s h with
  | nil => simp [itersFrom] at hf
  | cons e d ih =>
    have hn' := List.nodup_cons.1 (by simpa only [List.map_cons] using hn)
    by_cases he : e.id = t
    · simp only [itersFrom] at hf
      rw [List.find?_cons_of_pos (by simp [he])] at hf
      cases hf
      simp only [It.sysStart_mk, It.sysEnd_mk, tableLabels_cons]
      by_cases hlt : p < s + e.numSites
      · have hl : p - s < (List.replicate e.numSites e.id).length := by
          rw [List.length_replicate]; omega
        rw [List.getElem?_append_left hl, List.getElem?_eq_getElem hl]
        simp [he, hp, hlt]
      · rw [List.getElem?_append_right (by rw [List.length_replicate]; omega)]
        constructor
        · intro hx
          exfalso
          have hmem := List.mem_of_getElem? hx
          simp only [tableLabels, List.mem_flatMap, List.mem_replicate] at hmem
          obtain ⟨e', he', -, hid⟩ := hmem
          exact hn'.1 (List.mem_map.2 ⟨e', he', by rw [← hid, he]⟩)
        · intro hx; omega
    · simp only [itersFrom] at hf
      rw [List.find?_cons_of_neg (by simp [he])] at hf
      have hge := itersFrom_sysStart_ge d _ _ sub (List.mem_of_find?_eq_some hf)
      by_cases hlt : p < s + e.numSites
      · have hl : p - s < (List.replicate e.numSites e.id).length := by
          rw [List.length_replicate]; omega
        rw [tableLabels_cons, List.getElem?_append_left hl, List.getElem?_eq_getElem hl]
        constructor
        · intro hx; simp [he] at hx
        · intro hx; omega
      · rw [tableLabels_cons, List.getElem?_append_right (by rw [List.length_replicate]; omega),
          List.length_replicate, show p - s - e.numSites = p - (s + e.numSites) by omega]
        exact ih _ _ hn'.2 hf (by omega)

theorem find_block_none (d : Table) (s h : Nat) (t : Int) :
    (itersFrom s h d).find? (fun sub => sub.elem.id == t) = none ↔ t ∉ d.map (·.id) := by
  induction d generalizing s h with
  | nil => simp [itersFrom]
  | cons e d ih =>
    simp only [itersFrom]
    by_cases he : e.id = t
    · rw [List.find?_cons_of_pos (by simp [he])]; simp [he]
    · rw [List.find?_cons_of_neg (by simp [he]), ih]
      simp only [List.map_cons, List.mem_cons, not_or]
      exact ⟨fun hx => ⟨fun h => he h.symm, hx⟩, fun hx => hx.2⟩

theorem mem_ids_of_mem_labels (d : Table) (t : Int) (h : t ∈ tableLabels d) :
    t ∈ d.map (·.id) := by
  simp only [tableLabels, List.mem_flatMap, List.mem_replicate] at h
  obtain ⟨e', he', -, hid⟩ := h
  exact List.mem_map.2 ⟨e', he', hid.symm⟩

/-- The scan keeps the first index of minimal distance among those it has seen. -/
theorem nearestLoop_spec {K : Type u} [LinearOrder K] (dist : Nat → K) (l : List Nat) (best : Nat)
    (hl : (best :: l).Pairwise (· < ·)) :
    nearestLoop dist l best (dist best) ∈ best :: l ∧
    ∀ j ∈ best :: l, dist (nearestLoop dist l best (dist best)) ≤ dist j ∧
      (dist j = dist (nearestLoop dist l best (dist best)) →
        nearestLoop dist l best (dist best) ≤ j) := by
  induction l generalizing best with
  | nil => simp [nearestLoop]
  | cons i l ih =>
    have h1 := List.pairwise_cons.1 hl
    by_cases hlt : dist i < dist best
    · have hr : nearestLoop dist (i :: l) best (dist best) = nearestLoop dist l i (dist i) := by
        simp [nearestLoop, hlt]
      rw [hr]
      obtain ⟨ha, hb⟩ := ih i h1.2
      refine ⟨List.mem_cons_of_mem _ ha, ?_⟩
      intro j hj
      rcases List.mem_cons.1 hj with rfl | hj
      · have := (hb i (by simp)).1
        have hlt' := lt_of_le_of_lt this hlt
        exact ⟨le_of_lt hlt', fun he => absurd he (ne_of_gt hlt')⟩
      · exact hb j hj
    · have hr : nearestLoop dist (i :: l) best (dist best) = nearestLoop dist l best (dist best) := by
        simp [nearestLoop, hlt]
      rw [hr]
      have hpw : (best :: l).Pairwise (· < ·) :=
        List.pairwise_cons.2 ⟨fun j hj => h1.1 j (by simp [hj]), (List.pairwise_cons.1 h1.2).2⟩
      obtain ⟨ha, hb⟩ := ih best hpw
      refine ⟨?_, ?_⟩
      · rcases List.mem_cons.1 ha with h | h
        · rw [h]; simp
        · simp [h]
      · intro j hj
        rcases List.mem_cons.1 hj with rfl | hj
        · exact hb j (by simp)
        · rcases List.mem_cons.1 hj with rfl | hj
          · have hbest := hb best (by simp)
            refine ⟨le_trans hbest.1 (not_lt.1 hlt), fun he => ?_⟩
            have h3 : dist best = dist (nearestLoop dist l best (dist best)) :=
              le_antisymm (le_trans (not_lt.1 hlt) (le_of_eq he)) hbest.1
            exact Nat.le_trans (hbest.2 h3) (Nat.le_of_lt (h1.1 j (by simp)))
          · exact hb j (by simp [hj])

theorem drop_range_succ (s e : Nat) : (List.range e).drop (s + 1) = List.range' (s + 1) (e - (s + 1)) := by
  rw [List.range_eq_range', List.drop_range']; simp

/-- The loop over `s .. e-1` returns the first nearest index. -/
theorem nearestLoop_range {K : Type u} [LinearOrder K] (dist : Nat → K) (s e : Nat) (hse : s < e) :
    let r := nearestLoop dist ((List.range e).drop (s + 1)) s (dist s)
    (s ≤ r ∧ r < e) ∧ ∀ j, s ≤ j → j < e → dist r ≤ dist j ∧ (dist j = dist r → r ≤ j) := by
  intro r
  have hlist : s :: (List.range e).drop (s + 1) = List.range' s (e - s) := by
    rw [drop_range_succ, show e - s = (e - (s + 1)) + 1 by omega, List.range'_succ]
  have hpw : (s :: (List.range e).drop (s + 1)).Pairwise (· < ·) := by
    rw [hlist]; exact List.pairwise_lt_range'
  obtain ⟨ha, hb⟩ := nearestLoop_spec dist _ s hpw
  rw [hlist] at ha hb
  refine ⟨?_, ?_⟩
  · have := List.mem_range'_1.1 ha
    exact ⟨this.1, by have h2 := this.2; show r < e; omega⟩
  · intro j h1 h2
    exact hb j (List.mem_range'_1.2 ⟨h1, by omega⟩)

end Verif.Sublat
