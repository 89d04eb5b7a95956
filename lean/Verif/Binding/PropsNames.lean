import Verif.Binding.Names
import Verif.Sublat.Props
import Mathlib.Tactic.Linarith
import Mathlib.Tactic.Ring

/-!
# C81: a name selects the sites of its family
-/

namespace Verif.Binding.Names

/-! ## Specification -/

/-- The name `o` stands for the family `n`: it is the whole name, or the part before the first bar. -/
def StandsFor (o n : Name) : Prop := n = o ∨ '|' ∉ o ∧ ∃ rest, n = o ++ '|' :: rest

/-! ## Names -/

theorem first_eq_iff (n o : Name) : first n = o ↔ '|' ∉ o ∧ (n = o ∨ ∃ rest, n = o ++ '|' :: rest) := by
  unfold first
  induction n generalizing o with
  | nil =>
    constructor
    · rintro rfl
      exact ⟨by simp, .inl rfl⟩
    · rintro ⟨-, h | ⟨r, h⟩⟩
      · exact h
      · simp at h
  | cons c n ih =>
    by_cases hc : c = '|'
    · subst hc
      constructor
      · intro h
        have : o = [] := by simpa using h.symm
        subst this
        exact ⟨by simp, .inr ⟨n, rfl⟩⟩
      · rintro ⟨hb, h | ⟨r, h⟩⟩
        · subst h
          simp at hb
        · rcases o with _ | ⟨d, o⟩
          · simp
          · simp only [List.cons_append, List.cons.injEq] at h
            exact absurd (h.1 ▸ List.mem_cons_self) hb
    · have e : List.takeWhile (fun c => c != '|') (c :: n) = c :: List.takeWhile (fun c => c != '|') n := by
        simp [List.takeWhile_cons, hc]
      rw [e]
      rcases o with _ | ⟨d, o⟩
      · constructor
        · intro h
          cases h
        · rintro ⟨-, h | ⟨r, h⟩⟩
          · cases h
          · simp only [List.nil_append, List.cons.injEq] at h
            exact absurd h.1 hc
      · have ih' := ih o
        simp only [List.cons.injEq, List.mem_cons, not_or, List.cons_append] at ih' ⊢
        constructor
        · rintro ⟨rfl, h⟩
          obtain ⟨h1, h2⟩ := ih'.1 h
          refine ⟨⟨fun h => hc h.symm, h1⟩, ?_⟩
          rcases h2 with h2 | ⟨r, h2⟩
          · exact .inl ⟨rfl, h2⟩
          · exact .inr ⟨r, rfl, h2⟩
        · rintro ⟨⟨h0, h1⟩, h | ⟨r, h⟩⟩
          · exact ⟨h.1, ih'.2 ⟨h1, .inl h.2⟩⟩
          · exact ⟨h.1, ih'.2 ⟨h1, .inr ⟨r, h.2⟩⟩⟩

/-- **C81** (names).  A name of a family is equal to itself and to its part before the first bar, and to nothing else; `!=` is the opposite of `==`. -/
theorem C81_split (n o : Name) : (splitEq n o = true ↔ StandsFor o n) ∧ splitNe n o = !splitEq n o := by
  constructor
  · unfold splitEq StandsFor
    rw [Bool.or_eq_true, beq_iff_eq, beq_iff_eq, first_eq_iff]
    constructor
    · rintro (h | ⟨h1, h | h⟩)
      · exact .inl h
      · exact .inl h
      · exact .inr ⟨h1, h⟩
    · rintro (h | ⟨h1, h⟩)
      · exact .inl h
      · exact .inr ⟨h1, .inr h⟩
  · unfold splitNe splitEq
    simp only [bne, Bool.not_or]

/-! ## Arrays of ids -/

theorem mappedLoop_get (data : List Int) (o : Name) (m : List (Name × Int)) (r : List Bool) (hr : r.length = data.length) (i : Nat) (d : Int)
    (hd : data[i]? = some d) (b : Bool) (hb : r[i]? = some b) :
    (mappedLoop data o m r)[i]? = some (b || m.any fun p => splitEq p.1 o && d == p.2) ∧ (mappedLoop data o m r).length = data.length := by
  induction m generalizing r b with
  | nil => simp [mappedLoop, hb, hr]
  | cons p m ih =>
    obtain ⟨k, v⟩ := p
    unfold mappedLoop
    by_cases hk : splitEq k o = true
    · rw [if_pos hk]
      obtain ⟨h1, h2⟩ := ih (List.zipWith (· || ·) r (eqNum data v)) (by simp [eqNum, hr]) (b || d == v) (by
        simp [List.getElem?_zipWith, hb, eqNum, hd])
      refine ⟨?_, h2⟩
      rw [h1]
      simp [hk, Bool.or_assoc]
    · rw [if_neg hk]
      obtain ⟨h1, h2⟩ := ih r hr b hb
      refine ⟨?_, h2⟩
      rw [h1]
      simp [hk]

theorem dictGet_nameMap (names : List Name) (hnd : names.Nodup) (o : Name) (v : Int) :
    dictGet (nameMap names) o = some v ↔ ∃ i : Nat, v = i ∧ names[i]? = some o := by
  unfold dictGet
  rw [Option.map_eq_some_iff]
  constructor
  · rintro ⟨p, hp, rfl⟩
    have h1 := List.mem_of_find?_eq_some hp
    have h2 : p.1 = o := by simpa using List.find?_some hp
    unfold nameMap at h1
    obtain ⟨q, hq, rfl⟩ := List.mem_map.1 h1
    exact ⟨q.2, rfl, h2 ▸ List.mem_zipIdx_iff_getElem?.1 hq⟩
  · rintro ⟨i, rfl, hi⟩
    have hmem : (o, (i : Int)) ∈ nameMap names := List.mem_map.2 ⟨(o, i), List.mem_zipIdx_iff_getElem?.2 hi, rfl⟩
    rcases hf : (nameMap names).find? fun p => p.1 == o with _ | p
    · have := List.find?_eq_none.1 hf _ hmem
      simp at this
    · refine ⟨p, hf, ?_⟩
      have h1 := List.mem_of_find?_eq_some hf
      have h2 : p.1 = o := by simpa using List.find?_some hf
      unfold nameMap at h1
      obtain ⟨q, hq, rfl⟩ := List.mem_map.1 h1
      have hq' := List.mem_zipIdx_iff_getElem?.1 hq
      simp only at h2
      rw [h2] at hq'
      have : q.2 = i := by
        obtain ⟨a1, e1⟩ := List.getElem?_eq_some_iff.1 hq'
        obtain ⟨a2, e2⟩ := List.getElem?_eq_some_iff.1 hi
        exact (List.Nodup.getElem_inj_iff hnd).1 (e1.trans e2.symm)
      simp [this]

/-- **C81** (arrays).  `system.sublattices == name` is true for the sites of the family with this name; if there is no such family, for the sites of the families whose first part
it is. `!=` is the opposite. -/
theorem C81_array (ids : List Int) (names : List Name) (hnd : names.Nodup) (o : Name) (i j : Nat) (n : Name) (hi : ids[i]? = some (j : Int))
    (hj : names[j]? = some n) :
    (∃ b, ((systemIds ids names).eq o)[i]? = some b ∧ ((systemIds ids names).ne o)[i]? = some !b ∧ (b = true ↔ if o ∈ names then n = o else StandsFor o n)) ∧
    ((systemIds ids names).eq o).length = ids.length := by
  have key : (∃ b, ((systemIds ids names).eq o)[i]? = some b ∧ (b = true ↔ if o ∈ names then n = o else StandsFor o n)) ∧
      ((systemIds ids names).eq o).length = ids.length := by
    unfold AliasArray.eq systemIds
    simp only
    by_cases ho : o ∈ names
    · obtain ⟨k, hk⟩ := List.mem_iff_getElem?.1 ho
      rw [(dictGet_nameMap names hnd o k).2 ⟨k, rfl, hk⟩]
      simp only
      refine ⟨⟨(j : Int) == k, by simp [eqNum, hi], ?_⟩, by simp [eqNum]⟩
      rw [if_pos ho, beq_iff_eq, Int.natCast_inj]
      constructor
      · rintro rfl
        rw [hj] at hk
        exact Option.some.inj hk
      · rintro rfl
        obtain ⟨a1, e1⟩ := List.getElem?_eq_some_iff.1 hj
        obtain ⟨a2, e2⟩ := List.getElem?_eq_some_iff.1 hk
        exact (List.Nodup.getElem_inj_iff hnd).1 (e1.trans e2.symm)
    · have hnone : dictGet (nameMap names) o = none := by
        rcases h : dictGet (nameMap names) o with _ | v
        · rfl
        · obtain ⟨k, -, hk⟩ := (dictGet_nameMap names hnd o v).1 h
          exact absurd (List.mem_of_getElem? hk) ho
      rw [hnone]
      simp only
      have hlt : i < ids.length := (List.getElem?_eq_some_iff.1 hi).1
      obtain ⟨h1, h2⟩ := mappedLoop_get ids o (nameMap names) (List.replicate ids.length false) (by simp) i j hi false (by simp [hlt])
      refine ⟨⟨_, h1, ?_⟩, h2⟩
      rw [if_neg ho, Bool.false_or, List.any_eq_true, ← (C81_split n o).1]
      constructor
      · rintro ⟨p, hp, hpo⟩
        unfold nameMap at hp
        obtain ⟨q, hq, rfl⟩ := List.mem_map.1 hp
        simp only [Bool.and_eq_true, beq_iff_eq, Int.natCast_inj] at hpo
        have hq' := List.mem_zipIdx_iff_getElem?.1 hq
        rw [← hpo.2, hj, Option.some.injEq] at hq'
        rw [hq']
        exact hpo.1
      · intro h
        refine ⟨(n, (j : Int)), List.mem_map.2 ⟨(n, j), List.mem_zipIdx_iff_getElem?.2 hj, rfl⟩, ?_⟩
        simp [h]
  obtain ⟨⟨b, h1, h2⟩, h3⟩ := key
  refine ⟨⟨b, h1, ?_, h2⟩, h3⟩
  unfold AliasArray.ne
  rw [List.getElem?_map, h1]
  rfl

/-- **C81** (modifiers).  In a modifier `sub_id == name` is true exactly for the sites of the families which the name stands for, whatever other families there are; `!=` is the
opposite. -/
theorem C81_modifier (table : Sublat.Table) (names : List Name) (o : Name) (hids : ∀ e ∈ table, 0 ≤ e.id ∧ e.id.toNat < names.length) :
    ∃ ms, modifierMasks table names o = .ok ms ∧ ms.length = (Sublat.tableLabels table).length ∧
      ∀ (i j : Nat) (n : Name), (Sublat.tableLabels table)[i]? = some (j : Int) → names[j]? = some n → ∃ b, ms[i]? = some b ∧ (b = true ↔ StandsFor o n) := by
  induction table with
  | nil => exact ⟨[], rfl, rfl, by simp [Sublat.tableLabels]⟩
  | cons e rest ih =>
    obtain ⟨ms, h1, h2, h3⟩ := ih fun e he => hids e (List.mem_cons_of_mem _ he)
    obtain ⟨he0, he1⟩ := hids e List.mem_cons_self
    refine ⟨(AliasIndex.mk names[e.id.toNat] e.numSites).eq o ++ ms, ?_, ?_, ?_⟩
    · unfold modifierMasks
      rw [if_neg (by omega), List.getElem?_eq_getElem he1]
      simp only
      rw [h1]
      rfl
    · simp [AliasIndex.eq, h2]
    · intro i j n hi hj
      rw [Sublat.tableLabels_cons] at hi
      by_cases hlt : i < e.numSites
      · rw [List.getElem?_append_left (by simpa using hlt), List.getElem?_replicate, if_pos hlt, Option.some.injEq] at hi
        have hn : names[e.id.toNat] = n := by
          have : e.id.toNat = j := by omega
          obtain ⟨a, ea⟩ := List.getElem?_eq_some_iff.1 hj
          simp only [this]
          exact ea
        refine ⟨splitEq n o, ?_, (C81_split n o).1⟩
        rw [List.getElem?_append_left (by simpa [AliasIndex.eq] using hlt)]
        simp [AliasIndex.eq, hn, hlt]
      · rw [List.getElem?_append_right (by simpa using hlt), List.length_replicate] at hi
        obtain ⟨b, hb, hb'⟩ := h3 _ j n hi hj
        refine ⟨b, ?_, hb'⟩
        rw [List.getElem?_append_right (by simpa [AliasIndex.eq] using hlt)]
        simpa [AliasIndex.eq] using hb

/-- `sub_id != name` in a modifier. -/
theorem C81_index_ne (a : AliasIndex) (o : Name) : a.ne o = (a.eq o).map not := by
  unfold AliasIndex.ne AliasIndex.eq
  rw [List.map_replicate, (C81_split a.name o).2]

/-- **C81** (agreement, exactly).  The structure and the modifiers select the same sites by a name, unless there is a family with exactly this name and the system has a
site of another family with this first part. -/
theorem C81_agreement (table : Sublat.Table) (names : List Name) (hnd : names.Nodup) (o : Name)
    (hids : ∀ e ∈ table, 0 ≤ e.id ∧ e.id.toNat < names.length) :
    modifierMasks table names o = .ok ((systemIds (Sublat.tableLabels table) names).eq o) ↔
      ¬ (o ∈ names ∧ ∃ (j : Nat) (n : Name), (j : Int) ∈ Sublat.tableLabels table ∧ names[j]? = some n ∧ n ≠ o ∧ StandsFor o n) := by
  obtain ⟨ms, h1, h2, h3⟩ := C81_modifier table names o hids
  rw [h1, Res.ok.injEq]
  constructor
  · rintro rfl ⟨ho, j, n, hj, hn, hne, hs⟩
    obtain ⟨i, hi⟩ := List.mem_iff_getElem?.1 hj
    obtain ⟨b, hb, hb'⟩ := h3 i j n hi hn
    obtain ⟨⟨b', hc, -, hc'⟩, -⟩ := C81_array _ names hnd o i j n hi hn
    rw [hb, Option.some.injEq] at hc
    subst hc
    rw [if_pos ho] at hc'
    exact hne (hc'.1 (hb'.2 hs))
  · intro h
    apply List.ext_getElem?
    intro i
    rcases hi : (Sublat.tableLabels table)[i]? with _ | d
    · have hlen := List.getElem?_eq_none_iff.1 hi
      rw [List.getElem?_eq_none (by omega)]
      symm
      rw [List.getElem?_eq_none_iff]
      have hl : ((systemIds (Sublat.tableLabels table) names).eq o).length = (Sublat.tableLabels table).length := by
        unfold AliasArray.eq systemIds
        simp only
        split
        · simp [eqNum]
        · have : ∀ (m : List (Name × Int)) (r : List Bool), r.length = (Sublat.tableLabels table).length →
              (mappedLoop (Sublat.tableLabels table) o m r).length = (Sublat.tableLabels table).length := by
            intro m
            induction m with
            | nil => exact fun r hr => hr
            | cons p m ih =>
              intro r hr
              unfold mappedLoop
              apply ih
              split
              · simp [eqNum, hr]
              · exact hr
          exact this _ _ (by simp)
      omega
    · have hmem := List.mem_of_getElem? hi
      obtain ⟨e, he, hde⟩ : ∃ e ∈ table, d = e.id := by
        unfold Sublat.tableLabels at hmem
        obtain ⟨e, he, hd⟩ := List.mem_flatMap.1 hmem
        exact ⟨e, he, (List.mem_replicate.1 hd).2⟩
      obtain ⟨he0, he1⟩ := hids e he
      have hd : d = (d.toNat : Int) := by omega
      have hn : names[d.toNat]? = some names[d.toNat] := List.getElem?_eq_getElem (by omega)
      rw [hd] at hi
      obtain ⟨b, hb, hb'⟩ := h3 i _ _ hi hn
      obtain ⟨⟨b', hc, -, hc'⟩, -⟩ := C81_array _ names hnd o i _ _ hi hn
      rw [hb, hc]
      congr 1
      rw [Bool.eq_iff_iff, hb', hc']
      by_cases ho : o ∈ names
      · rw [if_pos ho]
        constructor
        · intro hs
          by_contra hne
          exact h ⟨ho, d.toNat, _, by rw [← hd]; exact hmem, hn, hne, hs⟩
        · intro he
          exact .inl he
      · rw [if_neg ho]

/-! ## Nearest sites -/

/-- The first smallest value. -/
def FirstLeast {K : Type} [LinearOrder K] (ds : List K) (r : Nat) : Prop :=
  ∃ d, ds[r]? = some d ∧ ∀ (j : Nat) (e : K), ds[j]? = some e → d ≤ e ∧ (e = d → r ≤ j)

theorem firstLeast_unique {K : Type} [LinearOrder K] (ds : List K) (r s : Nat) (hr : FirstLeast ds r) (hs : FirstLeast ds s) : r = s := by
  obtain ⟨d, h1, h2⟩ := hr
  obtain ⟨e, h3, h4⟩ := hs
  have := h2 s e h3
  have := h4 r d h1
  have he : d = e := le_antisymm (h2 s e h3).1 (h4 r d h1).1
  exact le_antisymm ((h2 s e h3).2 he.symm) ((h4 r d h1).2 he)

theorem argmin_go {K : Type} [LinearOrder K] (pre ds : List K) (best : Nat) (b : K) (hb : pre[best]? = some b)
    (hm : ∀ (j : Nat) (e : K), pre[j]? = some e → b ≤ e ∧ (e = b → best ≤ j)) : FirstLeast (pre ++ ds) (argmin.go ds pre.length best b) := by
  induction ds generalizing pre best b with
  | nil =>
    rw [List.append_nil]
    exact ⟨b, hb, hm⟩
  | cons d ds ih =>
    have hbl := (List.getElem?_eq_some_iff.1 hb).1
    unfold argmin.go
    have e1 : pre ++ d :: ds = (pre ++ [d]) ++ ds := by simp
    have e2 : pre.length + 1 = (pre ++ [d]).length := by simp
    rw [e1, e2]
    split
    · rename_i hlt
      apply ih
      · simp
      · intro j e hj
        by_cases hjl : j < pre.length
        · rw [List.getElem?_append_left hjl] at hj
          have := (hm j e hj).1
          exact ⟨(hlt.trans_le this).le, fun h => absurd (h ▸ hlt.trans_le this) (lt_irrefl _)⟩
        · rw [List.getElem?_append_right (by omega)] at hj
          have hj0 : j - pre.length = 0 := by
            have := (List.getElem?_eq_some_iff.1 hj).1
            simp only [List.length_singleton] at this
            omega
          rw [hj0] at hj
          simp only [List.getElem?_cons_zero, Option.some.injEq] at hj
          subst hj
          exact ⟨le_rfl, fun _ => by omega⟩
    · rename_i hlt
      apply ih
      · rw [List.getElem?_append_left hbl]
        exact hb
      · intro j e hj
        by_cases hjl : j < pre.length
        · rw [List.getElem?_append_left hjl] at hj
          exact hm j e hj
        · rw [List.getElem?_append_right (by omega)] at hj
          have hj0 : j - pre.length = 0 := by
            have := (List.getElem?_eq_some_iff.1 hj).1
            simp only [List.length_singleton] at this
            omega
          rw [hj0] at hj
          simp only [List.getElem?_cons_zero, Option.some.injEq] at hj
          subst hj
          exact ⟨not_lt.1 hlt, fun _ => by omega⟩

theorem argmin_spec {K : Type} [LinearOrder K] (ds : List K) (hne : ds ≠ []) : ∃ r, argmin ds = .ok r ∧ FirstLeast ds r := by
  rcases ds with _ | ⟨d, ds⟩
  · exact absurd rfl hne
  · refine ⟨_, rfl, ?_⟩
    have := argmin_go [d] ds 0 d rfl (by
      intro j e hj
      have hj0 : j = 0 := by
        have := (List.getElem?_eq_some_iff.1 hj).1
        simpa using this
      subst hj0
      simp only [List.getElem?_cons_zero, Option.some.injEq] at hj
      exact ⟨hj.le, fun _ => le_rfl⟩)
    exact this

section
variable {F : Type} [Field F] [LinearOrder F]

/-- **C81** (nearest site of any family). -/
theorem C81_nearest_any (ps : List (Pos F)) (ids : AliasArray) (target : List F) (ht : 0 < target.length ∧ target.length ≤ 3) (hne : ps ≠ []) :
    ∃ r p, sitesNearest ps ids target [] = .ok r ∧ ps[r]? = some p ∧
      ∀ (j : Nat) (q : Pos F), ps[j]? = some q → sqDist p target ≤ sqDist q target ∧ (sqDist q target = sqDist p target → r ≤ j) := by
  obtain ⟨r, h1, d, h2, h3⟩ := argmin_spec (ps.map fun p => sqDist p target) (by simpa using hne)
  rw [List.getElem?_map, Option.map_eq_some_iff] at h2
  obtain ⟨p, hp, rfl⟩ := h2
  refine ⟨r, p, ?_, hp, ?_⟩
  · unfold sitesNearest distances
    rw [if_neg (by omega), Res.bind_ok, if_pos rfl]
    exact h1
  · intro j q hq
    exact h3 j _ (by rw [List.getElem?_map, hq]; rfl)

/-- **C81** (targets).  A target without components or with more than three raises. -/
theorem C81_target (ps : List (Pos F)) (ids : AliasArray) (target : List F) (ht : target.length = 0 ∨ 3 < target.length) (o : Name) :
    sitesNearest ps ids target o = .err .invalidArgument := by
  unfold sitesNearest distances
  rw [if_pos ht]
  rfl

/-- **C81** (nearest site of a family).  If the name selects a site, the result is a selected site, no selected site is nearer, and of the selected sites at the same distance it is
the first. -/
theorem C81_nearest (ps : List (Pos F)) (ids : AliasArray) (target : List F) (ht : 0 < target.length ∧ target.length ≤ 3) (o : Name) (ho : o ≠ [])
    (hlen : (ids.eq o).length = ps.length) (i : Nat) (hi : (ids.eq o)[i]? = some true) :
    ∃ r p, sitesNearest ps ids target o = .ok r ∧ ps[r]? = some p ∧ (ids.eq o)[r]? = some true ∧
      ∀ (j : Nat) (q : Pos F), ps[j]? = some q → (ids.eq o)[j]? = some true → sqDist p target ≤ sqDist q target ∧ (sqDist q target = sqDist p target → r ≤ j) := by
  set l := List.zipWith (fun (d : F) m => if m then (⊤ : WithTop F) else (d : WithTop F)) (ps.map fun p => sqDist p target) (ids.ne o) with hl
  have hget : ∀ (j : Nat) (q : Pos F) (b : Bool), ps[j]? = some q → (ids.eq o)[j]? = some b → l[j]? = some (if b then ((sqDist q target : F) : WithTop F) else ⊤) := by
    intro j q b hq hb
    rw [hl, List.getElem?_zipWith, List.getElem?_map, hq]
    unfold AliasArray.ne
    rw [List.getElem?_map, hb]
    cases b <;> rfl
  have hllen : l.length = ps.length := by
    rw [hl]
    simp [AliasArray.ne, hlen]
  have hilt : i < ps.length := by
    have := (List.getElem?_eq_some_iff.1 hi).1
    omega
  obtain ⟨r, h1, d, h2, h3⟩ := argmin_spec l (by
    intro h
    rw [h] at hllen
    simp at hllen
    omega)
  have hrlt := (List.getElem?_eq_some_iff.1 h2).1
  have hp : ps[r]? = some ps[r] := List.getElem?_eq_getElem (by omega)
  have hb : (ids.eq o)[r]? = some (ids.eq o)[r] := List.getElem?_eq_getElem (by omega)
  have hd := hget r _ _ hp hb
  rw [h2, Option.some.injEq] at hd
  have hi' := hget i _ _ (List.getElem?_eq_getElem hilt) hi
  have hle := (h3 i _ hi').1
  simp only [if_true] at hle
  have hbt : (ids.eq o)[r] = true := by
    cases hbb : (ids.eq o)[r] with
    | true => rfl
    | false =>
      rw [hbb] at hd
      simp only [Bool.false_eq_true, if_false] at hd
      rw [hd] at hle
      exact absurd (top_le_iff.1 hle) (WithTop.coe_ne_top)
  rw [hbt] at hd hb
  simp only [if_true] at hd
  subst hd
  refine ⟨r, _, ?_, hp, hb, ?_⟩
  · unfold sitesNearest distances
    rw [if_neg (by omega), Res.bind_ok, if_neg ho]
    exact h1
  · intro j q hq hjb
    have := h3 j _ (hget j q true hq hjb)
    simp only [if_true, WithTop.coe_le_coe, WithTop.coe_inj] at this
    exact this

/-- **C81** (missing families): if the name selects no site, a structure answers with site zero instead of an error. -/
theorem C81_nearest_missing (ps : List (Pos F)) (ids : AliasArray) (target : List F) (ht : 0 < target.length ∧ target.length ≤ 3) (o : Name) (ho : o ≠ [])
    (hlen : (ids.eq o).length = ps.length) (hne : ps ≠ []) (hno : true ∉ ids.eq o) : sitesNearest ps ids target o = .ok 0 := by
  unfold sitesNearest distances
  rw [if_neg (by omega), Res.bind_ok, if_neg ho]
  unfold maskedArgmin
  have hall : ∀ x ∈ List.zipWith (fun (d : F) m => if m then (⊤ : WithTop F) else (d : WithTop F)) (ps.map fun p => sqDist p target) (ids.ne o), x = ⊤ := by
    intro x hx
    obtain ⟨j, hj⟩ := List.mem_iff_getElem?.1 hx
    rw [List.getElem?_zipWith] at hj
    rcases hb : (ids.ne o)[j]? with _ | b
    · rw [hb] at hj
      rcases (ps.map fun p => sqDist p target)[j]? <;> simp at hj
    · have hbt : b = true := by
        unfold AliasArray.ne at hb
        rw [List.getElem?_map, Option.map_eq_some_iff] at hb
        obtain ⟨c, hc, rfl⟩ := hb
        cases c with
        | true => exact absurd (List.mem_of_getElem? hc) hno
        | false => rfl
      rw [hb, hbt] at hj
      rcases hd : (ps.map fun p => sqDist p target)[j]? with _ | d
      · rw [hd] at hj
        simp at hj
      · rw [hd] at hj
        simpa using hj.symm
  have hnl : List.zipWith (fun (d : F) m => if m then (⊤ : WithTop F) else (d : WithTop F)) (ps.map fun p => sqDist p target) (ids.ne o) ≠ [] := by
    intro h
    have := congrArg List.length h
    simp only [List.length_zipWith, List.length_map, AliasArray.ne, hlen, Nat.min_self, List.length_nil] at this
    exact hne (List.length_eq_zero_iff.1 this)
  obtain ⟨r, h1, d, h2, h3⟩ := argmin_spec _ hnl
  rw [h1]
  have hd := hall d (List.mem_of_getElem? h2)
  have h0 := List.getElem?_eq_getElem (List.length_pos_iff.2 hnl)
  have := (h3 0 _ h0).2 ((hall _ (List.mem_of_getElem? h0)).trans hd.symm)
  congr 1
  omega

end

/-- **C81** (system and structure).  `System.find_nearest`, which is done in C++, and `find_nearest` of a structure (e.g. of a part of the system) agree on the same sites, for the
name of a family with sites, if the sites have no components (other than zero) which the target does not have. -/
theorem C81_nearest_agree_partial {F : Type} [Field F] [LinearOrder F] (table : Sublat.Table) (names : List Name) (hnd : names.Nodup) (ps : List (Pos F))
    (hv : Sublat.verify table ps.length = .ok ()) (target : List F) (ht : 0 < target.length ∧ target.length ≤ 3)
    (hy : target.length < 2 → ∀ p ∈ ps, p.y = 0) (hz : target.length < 3 → ∀ p ∈ ps, p.z = 0)
    (o : Name) (ho : o ≠ []) (k : Nat) (hk : names[k]? = some o) (hocc : (k : Int) ∈ Sublat.tableLabels table) :
    ∃ r, sitesNearest ps (systemIds (Sublat.tableLabels table) names) target o = .ok r ∧ systemNearest table names ps target o = .ok r := by
  have hdist : ∀ p ∈ ps, cppDist p target = sqDist p target := by
    intro p hp
    unfold cppDist sqDist Pos.head
    rcases target with _ | ⟨a, _ | ⟨b, _ | ⟨c, _ | ⟨d, t⟩⟩⟩⟩
    · simp at ht
    · have h1 := hy (by simp) p hp
      have h2 := hz (by simp) p hp
      simp [h1, h2]
    · have h2 := hz (by simp) p hp
      simp [h2]
    · simp [add_assoc]
    · simp at ht
  have hdec := Sublat.decompressed_eq table
  have hsel : ∀ (j : Nat), ((systemIds (Sublat.tableLabels table) names).eq o)[j]? = some true ↔ (Sublat.tableLabels table)[j]? = some (k : Int) := by
    intro j
    have hget : dictGet (nameMap names) o = some (k : Int) := (dictGet_nameMap names hnd o k).2 ⟨k, rfl, hk⟩
    unfold AliasArray.eq systemIds
    simp only [hget, eqNum, List.getElem?_map]
    rcases (Sublat.tableLabels table)[j]? with _ | d <;> simp
  have hlen : ((systemIds (Sublat.tableLabels table) names).eq o).length = (Sublat.tableLabels table).length := by
    have hget : dictGet (nameMap names) o = some (k : Int) := (dictGet_nameMap names hnd o k).2 ⟨k, rfl, hk⟩
    unfold AliasArray.eq systemIds
    simp [hget, eqNum]
  have hn : (Sublat.tableLabels table).length = ps.length := by
    have h := ((Sublat.verify_iff table ps.length).1 hv).1
    rw [Sublat.length_tableLabels]
    exact h
  obtain ⟨i, hi⟩ := List.mem_iff_getElem?.1 hocc
  obtain ⟨r, p, h1, h2, h3, h4⟩ := C81_nearest ps (systemIds (Sublat.tableLabels table) names) target ht o ho (by omega) i ((hsel i).2 hi)
  obtain ⟨s, e1, e2, e3⟩ := Sublat.C40_find_nearest_sublattice_partial table ps.length hv k (by rw [hdec]; exact List.mem_map.2 ⟨_, hocc, rfl⟩)
    (distAt ps target)
  have hlab : ∀ j : Nat, (Sublat.decompressed table)[j]? = some (some (k : Int)) ↔ (Sublat.tableLabels table)[j]? = some (k : Int) := by
    intro j
    rw [hdec, List.getElem?_map]
    cases (Sublat.tableLabels table)[j]? <;> simp
  have hslt : s < ps.length := by
    have := (List.getElem?_eq_some_iff.1 ((hlab s).1 e2)).1
    omega
  have hq := List.getElem?_eq_getElem hslt
  have f1 := e3 r ((hlab r).2 ((hsel r).1 h3))
  have f2 := h4 s _ hq ((hsel s).2 ((hlab s).1 e2))
  simp only [distAt, h2, hq] at f1
  rw [hdist p (List.mem_of_getElem? h2), hdist _ (List.mem_of_getElem? hq)] at f1
  have heq : sqDist p target = sqDist ps[s] target := le_antisymm f2.1 f1.1
  have hrs : r = s := le_antisymm (f2.2 heq.symm) (f1.2 heq)
  refine ⟨r, h1, ?_⟩
  unfold systemNearest
  simp only
  rw [if_neg ho]
  have hf : names.findIdx? (fun n => n == o) = some k := by
    rw [List.findIdx?_eq_some_iff_getElem]
    obtain ⟨hkl, hke⟩ := List.getElem?_eq_some_iff.1 hk
    refine ⟨hkl, by simp [hke], ?_⟩
    intro j hjk
    simp only [Bool.not_eq_true, beq_eq_false_iff_ne, ne_eq]
    intro hje
    have := (List.Nodup.getElem_inj_iff hnd).1 (hje.trans hke.symm)
    omega
  rw [hf]
  simp only
  rw [e1, hrs]

/-- **C81** (heights): without a third component of the target a structure ignores the heights of the sites, and the system takes the distance from height zero. -/
theorem C81_height_witness :
    sitesNearest [⟨0, 0, 5⟩, ⟨1, 0, 0⟩] (systemIds [0, 0] ["A".toList]) [(0 : Rat), 0] "A".toList = .ok 0 ∧
    systemNearest [⟨0, 2, 1⟩] ["A".toList] [⟨0, 0, 5⟩, ⟨1, 0, 0⟩] [(0 : Rat), 0] "A".toList = .ok 1 := by
  decide +kernel

/-- **C81** (missing families): the structure answers with a site of another family, the system raises an error. -/
theorem C81_missing_witness :
    sitesNearest [⟨0, 0, 0⟩, ⟨1, 0, 0⟩] (systemIds [0, 0] ["A".toList, "B".toList]) [(1 : Rat), 0] "B".toList = .ok 0 ∧
    systemNearest [⟨0, 2, 1⟩] ["A".toList, "B".toList] [⟨0, 0, 0⟩, ⟨1, 0, 0⟩] [(1 : Rat), 0] "B".toList = .err .runtimeError ∧
    systemNearest [⟨0, 2, 1⟩] ["A|1".toList] [⟨0, 0, 0⟩, ⟨1, 0, 0⟩] [(1 : Rat), 0] "A".toList = .err .outOfRange ∧
    sitesNearest [⟨0, 0, 0⟩, ⟨1, 0, 0⟩] (systemIds [0, 0] ["A|1".toList]) [(1 : Rat), 0] "A".toList = .ok 1 := by
  decide +kernel

/-! ## Examples -/

/-- Families `A|1`, `B`, `A|2` as in the documentation: `A` stands for the first and the third. -/
example : (systemIds [0, 1, 0, 2] ["A|1".toList, "B".toList, "A|2".toList]).eq "A".toList = [true, false, true, true] ∧
    modifierMasks [⟨0, 2, 1⟩, ⟨1, 1, 1⟩] ["A|1".toList, "B".toList] "A".toList = .ok [true, true, false] := by
  decide +kernel

/-- With a family `A` beside `A|1` the two differ. -/
theorem C81_disagree_witness : (systemIds [0, 1] ["A".toList, "A|1".toList]).eq "A".toList = [true, false] ∧
    modifierMasks [⟨0, 1, 1⟩, ⟨1, 1, 1⟩] ["A".toList, "A|1".toList] "A".toList = .ok [true, true] := by
  decide +kernel

end Verif.Binding.Names
