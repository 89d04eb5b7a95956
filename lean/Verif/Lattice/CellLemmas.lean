import Verif.Lattice.Lemmas

set_option linter.dupNamespace false
set_option linter.unusedSectionVars false

namespace Verif.Lattice

variable {K P : Type}

/-! ## Site registry -/

theorem siteRegistryLoop_ok {n : Nat} (subs : List (String × Sublattice K P)) (es : List (Mat K))
    (ns : List String) (he : es.length = n) (hn : ns.length = n)
    (h : ∀ p ∈ subs, p.2.aliasId = p.2.uniqueId → p.2.uniqueId < n)
    (hd : (subs.map (·.2.uniqueId)).Nodup) :
    ∃ r, siteRegistryLoop subs es ns = .ok r ∧ r.energies.length = n ∧ r.names.length = n ∧
      (∀ p ∈ subs, p.2.aliasId = p.2.uniqueId →
        r.energies[p.2.uniqueId]? = some p.2.energy ∧ r.names[p.2.uniqueId]? = some p.1) ∧
      (∀ j : Nat, (∀ p ∈ subs, p.2.aliasId = p.2.uniqueId → p.2.uniqueId ≠ j) →
        r.energies[j]? = es[j]? ∧ r.names[j]? = ns[j]?) := by
  induction subs generalizing es ns with
  | nil => exact ⟨⟨es, ns⟩, rfl, he, hn, by simp, by simp⟩
  | cons p subs ih =>
    obtain ⟨nm, s⟩ := p
    simp only [List.map_cons, List.nodup_cons] at hd
    unfold siteRegistryLoop
    by_cases hs : s.aliasId = s.uniqueId
    · rw [if_neg (by simpa using hs)]
      have hlt : s.uniqueId < n := h _ List.mem_cons_self hs
      simp only [atSet, he, hn, hlt, if_true, Res.bind_ok]
      obtain ⟨r, h1, h2, h3, h4, h5⟩ := ih (es.set s.uniqueId s.energy) (ns.set s.uniqueId nm)
        (by simpa) (by simpa) (fun p hp => h p (List.mem_cons_of_mem _ hp)) hd.2
      refine ⟨r, h1, h2, h3, ?_, ?_⟩
      · intro p hp hpa
        rcases List.mem_cons.1 hp with rfl | hp
        · have := h5 s.uniqueId (fun q hq _ hu => hd.1 (List.mem_map.2 ⟨q, hq, hu⟩))
          rw [this.1, this.2]
          simp [he, hn, hlt]
        · exact h4 p hp hpa
      · intro j hj
        have := h5 j (fun p hp => hj p (List.mem_cons_of_mem _ hp))
        rw [this.1, this.2]
        have hne := hj _ List.mem_cons_self hs
        simp only at hne
        simp [hne]
    · rw [if_pos (by simpa using hs)]
      obtain ⟨r, h1, h2, h3, h4, h5⟩ := ih es ns he hn
        (fun p hp => h p (List.mem_cons_of_mem _ hp)) hd.2
      refine ⟨r, h1, h2, h3, ?_, ?_⟩
      · intro p hp hpa
        rcases List.mem_cons.1 hp with rfl | hp
        · exact absurd hpa hs
        · exact h4 p hp hpa
      · intro j hj
        exact h5 j (fun p hp => hj p (List.mem_cons_of_mem _ hp))

theorem siteRegistryLoop_err {n : Nat} (subs : List (String × Sublattice K P)) (es : List (Mat K))
    (ns : List String) (he : es.length = n) (hn : ns.length = n)
    (h : ∃ p ∈ subs, p.2.aliasId = p.2.uniqueId ∧ n ≤ p.2.uniqueId) :
    siteRegistryLoop subs es ns = .err .outOfRange := by
  induction subs generalizing es ns with
  | nil => simp at h
  | cons p subs ih =>
    obtain ⟨nm, s⟩ := p
    unfold siteRegistryLoop
    obtain ⟨q, hq, h1, h2⟩ := h
    by_cases hs : s.aliasId = s.uniqueId
    · rw [if_neg (by simpa using hs)]
      by_cases hlt : s.uniqueId < n
      · simp only [atSet, he, hn, hlt, if_true, Res.bind_ok]
        refine ih _ _ (by simpa) (by simpa) ?_
        rcases List.mem_cons.1 hq with rfl | hq
        · simp only at h2; omega
        · exact ⟨q, hq, h1, h2⟩
      · simp [atSet, he, hlt]
    · rw [if_pos (by simpa using hs)]
      refine ih _ _ he hn ?_
      rcases List.mem_cons.1 hq with rfl | hq
      · exact absurd h1 hs
      · exact ⟨q, hq, h1, h2⟩

theorem exists_late_true (bs : List Bool) (h : 0 < bs.count true) :
    ∃ i : Nat, bs[i]? = some true ∧ bs.count true ≤ i + 1 := by
  induction bs with
  | nil => simp at h
  | cons b bs ih =>
    rcases Nat.eq_zero_or_pos (bs.count true) with h0 | h0
    · cases b
      · simp [h0] at h
      · exact ⟨0, by simp, by simp [h0]⟩
    · obtain ⟨i, h1, h2⟩ := ih h0
      refine ⟨i + 1, by simpa using h1, ?_⟩
      rw [List.count_cons]
      split <;> omega

theorem initial_segment_iff (bs : List Bool) :
    (∀ i : Nat, bs[i]? = some true → i < bs.count true) ↔
    (∀ i j : Nat, bs[i]? = some false → bs[j]? = some true → j < i) := by
  induction bs with
  | nil => simp
  | cons b bs ih =>
    cases b
    · constructor
      · intro h i j hi hj
        exfalso
        have hp : 0 < bs.count true := by
          cases j with
          | zero => simp at hj
          | succ j =>
            simp only [List.getElem?_cons_succ] at hj
            exact List.count_pos_iff.2 (List.mem_iff_getElem?.2 ⟨j, hj⟩)
        obtain ⟨k, hk, hk'⟩ := exists_late_true bs hp
        have := h (k + 1) (by simpa using hk)
        rw [List.count_cons] at this
        simp at this
        omega
      · intro h i hi
        have := h 0 i (by simp) hi
        omega
    · constructor
      · intro h i j hi hj
        cases i with
        | zero => simp at hi
        | succ i =>
          cases j with
          | zero => omega
          | succ j =>
            have := (ih.1 (fun k hk => by
              have := h (k + 1) (by simpa using hk)
              rw [List.count_cons] at this
              simpa using this)) i j (by simpa using hi) (by simpa using hj)
            omega
      · intro h i hi
        rw [List.count_cons]
        cases i with
        | zero => simp
        | succ i =>
          have := ih.2 (fun a b ha hb => by
            have := h (a + 1) (b + 1) (by simpa using ha) (by simpa using hb)
            omega) i (by simpa using hi)
          simp only [beq_self_eq_true, if_true]
          omega

theorem Inv.nodup_ids [Star K] {l : Lattice K P} (h : Inv l) :
    (l.subs.map (·.2.uniqueId)).Nodup := by
  have : l.subs.map (·.2.uniqueId) = List.range l.subs.length := by
    apply List.ext_getElem?
    intro i
    rw [List.getElem?_map]
    rcases hi : l.subs[i]? with _ | p
    · simp only [Option.map_none]
      rw [List.getElem?_eq_none]
      simpa using List.getElem?_eq_none_iff.1 hi
    · rw [Option.map_some, h.subIds i p hi]
      obtain ⟨hlt, -⟩ := List.getElem?_eq_some_iff.1 hi
      rw [List.getElem?_range hlt]
  rw [this]
  exact List.nodup_range

/-- Sublattices created without `add_alias` come before the aliases. -/
theorem Inv.first_iff [Star K] {l : Lattice K P} (h : Inv l) :
    (∀ p ∈ l.subs, p.2.aliasId = p.2.uniqueId →
      p.2.uniqueId < l.subs.countP (fun p => p.2.aliasId == p.2.uniqueId)) ↔
    (∀ (i j : Nat) p q, l.subs[i]? = some p → l.subs[j]? = some q → p.2.aliasId ≠ p.2.uniqueId →
      q.2.aliasId = q.2.uniqueId → j < i) := by
  have hk := initial_segment_iff (l.subs.map (fun p => p.2.aliasId == p.2.uniqueId))
  have hc : (l.subs.map (fun p => p.2.aliasId == p.2.uniqueId)).count true
      = l.subs.countP (fun p => p.2.aliasId == p.2.uniqueId) := by
    rw [List.count, List.countP_map]
    congr 1
    funext p
    simp
  rw [hc] at hk
  constructor
  · intro h1 i j p q hp hq hpa hqa
    refine hk.1 ?_ i j ?_ ?_
    · intro k hk
      rw [List.getElem?_map] at hk
      obtain ⟨r, hr, hr'⟩ := Option.map_eq_some_iff.1 hk
      have hid := h.subIds k r hr
      rw [← hid]
      exact h1 r (List.mem_of_getElem? hr) (by simpa using hr')
    · rw [List.getElem?_map, hp]
      simp [hpa]
    · rw [List.getElem?_map, hq]
      simp [hqa]
  · intro h1 p hp hpa
    obtain ⟨i, hi⟩ := List.mem_iff_getElem?.1 hp
    rw [h.subIds i p hi]
    refine hk.2 ?_ i ?_
    · intro a b ha hb
      rw [List.getElem?_map] at ha hb
      obtain ⟨r, hr, hr'⟩ := Option.map_eq_some_iff.1 ha
      obtain ⟨s, hs, hs'⟩ := Option.map_eq_some_iff.1 hb
      exact h1 a b r s hr hs (by simpa using hr') (by simpa using hs')
    · rw [List.getElem?_map, hi]
      simp [hpa]

theorem hoppingRegistryLoop_ok {n : Nat} (hops : List (String × HoppingFamily K)) (es : List (Mat K))
    (ns : List String) (he : es.length = n) (hn : ns.length = n)
    (h : ∀ p ∈ hops, p.2.familyId < n) (hd : (hops.map (·.2.familyId)).Nodup) :
    ∃ r, hoppingRegistryLoop hops es ns = .ok r ∧ r.energies.length = n ∧ r.names.length = n ∧
      (∀ p ∈ hops, r.energies[p.2.familyId]? = some p.2.energy ∧
        r.names[p.2.familyId]? = some p.1) ∧
      (∀ j : Nat, (∀ p ∈ hops, p.2.familyId ≠ j) →
        r.energies[j]? = es[j]? ∧ r.names[j]? = ns[j]?) := by
  induction hops generalizing es ns with
  | nil => exact ⟨⟨es, ns⟩, rfl, he, hn, by simp, by simp⟩
  | cons p hops ih =>
    obtain ⟨nm, s⟩ := p
    simp only [List.map_cons, List.nodup_cons] at hd
    unfold hoppingRegistryLoop
    have hlt : s.familyId < n := h _ List.mem_cons_self
    simp only [atSet, he, hn, hlt, if_true, Res.bind_ok]
    obtain ⟨r, h1, h2, h3, h4, h5⟩ := ih (es.set s.familyId s.energy) (ns.set s.familyId nm)
      (by simpa) (by simpa) (fun p hp => h p (List.mem_cons_of_mem _ hp)) hd.2
    refine ⟨r, h1, h2, h3, ?_, ?_⟩
    · intro p hp
      rcases List.mem_cons.1 hp with rfl | hp
      · have := h5 s.familyId (fun q hq hu => hd.1 (List.mem_map.2 ⟨q, hq, hu⟩))
        rw [this.1, this.2]
        simp [he, hn, hlt]
      · exact h4 p hp
    · intro j hj
      have := h5 j (fun p hp => hj p (List.mem_cons_of_mem _ hp))
      rw [this.1, this.2]
      have hne := hj _ List.mem_cons_self
      simp only at hne
      simp [hne]

theorem Inv.nodup_hopIds [Star K] {l : Lattice K P} (h : Inv l) :
    l.hops.map (·.2.familyId) = List.range l.hops.length := by
  apply List.ext_getElem?
  intro i
  rw [List.getElem?_map]
  rcases hi : l.hops[i]? with _ | p
  · simp only [Option.map_none]
    rw [List.getElem?_eq_none]
    simpa using List.getElem?_eq_none_iff.1 hi
  · rw [Option.map_some, h.hopIds i p hi]
    obtain ⟨hlt, -⟩ := List.getElem?_eq_some_iff.1 hi
    rw [List.getElem?_range hlt]

/-! ## Populating the unit cell -/

/-- The cell site of a sublattice before hoppings are added. -/
def toSite (s : Sublattice K P) : CellSite := ⟨s.energy.cols, s.uniqueId, s.aliasId, []⟩

theorem populateSites_ok (subs : List (String × Sublattice K P)) (sites : List (Option CellSite))
    (h : ∀ p ∈ subs, p.2.uniqueId < sites.length) (hd : (subs.map (·.2.uniqueId)).Nodup) :
    ∃ r, populateSites subs sites = .ok r ∧ r.length = sites.length ∧
      (∀ p ∈ subs, r[p.2.uniqueId]? = some (some (toSite p.2))) ∧
      (∀ j : Nat, (∀ p ∈ subs, p.2.uniqueId ≠ j) → r[j]? = sites[j]?) := by
  induction subs generalizing sites with
  | nil => exact ⟨sites, rfl, rfl, by simp, by simp⟩
  | cons p subs ih =>
    obtain ⟨nm, s⟩ := p
    simp only [List.map_cons, List.nodup_cons] at hd
    unfold populateSites
    have hlt : s.uniqueId < sites.length := h _ List.mem_cons_self
    rw [if_pos hlt]
    obtain ⟨r, h1, h2, h3, h4⟩ := ih (sites.set s.uniqueId
      (some ⟨s.energy.cols, s.uniqueId, s.aliasId, []⟩))
      (fun p hp => by simpa using h p (List.mem_cons_of_mem _ hp)) hd.2
    refine ⟨r, h1, by simpa using h2, ?_, ?_⟩
    · intro p hp
      rcases List.mem_cons.1 hp with rfl | hp
      · have := h4 s.uniqueId (fun q hq hu => hd.1 (List.mem_map.2 ⟨q, hq, hu⟩))
        rw [this]
        simp [hlt, toSite]
      · exact h3 p hp
    · intro j hj
      have := h4 j (fun p hp => hj p (List.mem_cons_of_mem _ hp))
      rw [this]
      have hne := hj _ List.mem_cons_self
      simp only at hne
      simp [hne]

theorem allSome_map_some {α : Type} (xs : List α) : allSome (xs.map some) = some xs := by
  induction xs with
  | nil => rfl
  | cons x xs ih => simp [allSome, ih]

/-- Whatever the iteration order, the sites are populated by unique id. -/
theorem Inv.populate [Star K] {l : Lattice K P} (h : Inv l) {subs : List (String × Sublattice K P)}
    (hp : subs.Perm l.subs) :
    populateSites subs (List.replicate subs.length none)
      = .ok ((l.subs.map (fun p => toSite p.2)).map some) := by
  have hmem : ∀ p ∈ subs, l.subs[p.2.uniqueId]? = some p := fun p hm =>
    h.id_lt (n := p.1) (s := p.2) (hp.mem_iff.1 hm)
  obtain ⟨r, h1, h2, h3, h4⟩ := populateSites_ok subs (List.replicate subs.length none)
    (fun p hm => by
      obtain ⟨hlt, -⟩ := List.getElem?_eq_some_iff.1 (hmem p hm)
      simpa [hp.length_eq] using hlt)
    ((hp.map _).nodup_iff.2 h.nodup_ids)
  rw [h1]
  congr 1
  apply List.ext_getElem?
  intro i
  rw [List.map_map, List.getElem?_map]
  rcases hi : l.subs[i]? with _ | p
  · simp only [Option.map_none]
    have := List.getElem?_eq_none_iff.1 hi
    rw [List.getElem?_eq_none]
    rw [h2]
    simpa [hp.length_eq] using this
  · have hm := List.mem_of_getElem? hi
    have := h3 p (hp.mem_iff.2 hm)
    rw [h.subIds i p hi] at this
    rw [this]
    simp

/-! ## Stable sorting -/

/-- Lexicographic: by key first, by the previous order for equal keys. -/
def Lex {α : Type} (k : α → Nat) (S : α → α → Prop) (a b : α) : Prop :=
  k a < k b ∨ (k a = k b ∧ S a b)

theorem orderedInsert_lex {α : Type} (k : α → Nat) (S : α → α → Prop) (a : α) (l : List α)
    (hl : l.Pairwise (Lex k S)) (ha : ∀ b ∈ l, S a b) :
    (l.orderedInsert (fun a b => k a ≤ k b) a).Pairwise (Lex k S) := by
  induction l with
  | nil => simp
  | cons b l ih =>
    rw [List.pairwise_cons] at hl
    rw [List.orderedInsert_cons]
    split
    · rename_i hab
      refine List.pairwise_cons.2 ⟨?_, List.pairwise_cons.2 hl⟩
      intro c hc
      have hkc : k a ≤ k c := by
        rcases List.mem_cons.1 hc with rfl | hc'
        · exact hab
        · rcases hl.1 c hc' with h | h <;> omega
      rcases Nat.lt_or_eq_of_le hkc with h | h
      · exact .inl h
      · exact .inr ⟨h, ha c hc⟩
    · rename_i hab
      refine List.pairwise_cons.2 ⟨?_, ih hl.2 (fun c hc => ha c (List.mem_cons_of_mem _ hc))⟩
      intro c hc
      rw [List.mem_orderedInsert] at hc
      rcases hc with rfl | hc
      · left; omega
      · exact hl.1 c hc

theorem insertionSort_lex {α : Type} (k : α → Nat) (S : α → α → Prop) (l : List α)
    (hl : l.Pairwise S) :
    (l.insertionSort (fun a b => k a ≤ k b)).Pairwise (Lex k S) := by
  induction l with
  | nil => simp
  | cons a l ih =>
    rw [List.pairwise_cons] at hl
    rw [List.insertionSort_cons]
    exact orderedInsert_lex k S a _ (ih hl.2) (fun b hb => hl.1 b (by simpa using hb))

theorem sortSites_perm (sites : List CellSite) : (sortSites sites).Perm sites :=
  (List.perm_insertionSort _ _).trans (List.perm_insertionSort _ _)

theorem sortSites_lex (sites : List CellSite)
    (h : sites.Pairwise (fun a b => a.uniqueId < b.uniqueId)) :
    (sortSites sites).Pairwise
      (Lex (·.norb) (Lex (·.aliasId) (fun a b => a.uniqueId < b.uniqueId))) :=
  insertionSort_lex _ _ _ (insertionSort_lex _ _ _ h)

/-! ## Hopping lists -/

/-- What a site keeps when hoppings are added. -/
def siteKey (s : CellSite) : Nat × Nat × Nat := (s.norb, s.uniqueId, s.aliasId)

theorem findIndex_congr {a b : List CellSite} (h : a.map siteKey = b.map siteKey) (u : Nat) :
    findIndex a u = findIndex b u := by
  unfold findIndex
  induction a generalizing b with
  | nil =>
    cases b with
    | nil => rfl
    | cons y b => simp at h
  | cons x a ih =>
    cases b with
    | nil => simp at h
    | cons y b =>
      simp only [List.map_cons, List.cons.injEq] at h
      have hxy : x.uniqueId = y.uniqueId := by
        have := h.1
        simp only [siteKey, Prod.mk.injEq] at this
        exact this.2.1
      rw [List.findIdx_cons, List.findIdx_cons, ih h.2, hxy]

theorem findIndex_spec {sites : List CellSite} {u : Nat} (h : u ∈ sites.map (·.uniqueId)) :
    ∃ s, sites[findIndex sites u]? = some s ∧ s.uniqueId = u := by
  have hlt : findIndex sites u < sites.length := by
    unfold findIndex
    rw [List.findIdx_lt_length]
    obtain ⟨s, hs, rfl⟩ := List.mem_map.1 h
    exact ⟨s, hs, by simp⟩
  refine ⟨sites[findIndex sites u], List.getElem?_eq_getElem hlt, ?_⟩
  have := List.findIdx_getElem (w := hlt)
  simp only [beq_iff_eq] at this
  exact this

theorem eq_of_uniqueId {sites : List CellSite} (hd : (sites.map (·.uniqueId)).Nodup) {i j : Nat}
    {a b : CellSite} (hi : sites[i]? = some a) (hj : sites[j]? = some b)
    (h : a.uniqueId = b.uniqueId) : i = j := by
  obtain ⟨hil, rfl⟩ := List.getElem?_eq_some_iff.1 hi
  obtain ⟨hjl, rfl⟩ := List.getElem?_eq_some_iff.1 hj
  have := (List.Nodup.getElem_inj_iff hd (i := i) (j := j)
    (hi := by simpa using hil) (hj := by simpa using hjl)).1 (by simpa using h)
  exact this

/-- How a site with unique id `u` sees one term, `pos` giving the index of each unique id. -/
def seen (pos : Nat → Nat) (u : Nat) (p : HoppingFamily K × HoppingTerm) : List CellHopping :=
  (if p.2.src = u then [⟨p.2.rel, pos p.2.dst, p.1.familyId, false⟩] else []) ++
  (if p.2.dst = u then [⟨p.2.rel.neg, pos p.2.src, p.1.familyId, true⟩] else [])

theorem pushHoppings_ok {sites : List CellSite} (hd : (sites.map (·.uniqueId)).Nodup)
    (f : HoppingFamily K) (t : HoppingTerm) (h1 : t.src ∈ sites.map (·.uniqueId))
    (h2 : t.dst ∈ sites.map (·.uniqueId)) :
    pushHoppings sites f.familyId t = .ok (sites.map (fun s =>
      { s with hoppings := s.hoppings ++ seen (findIndex sites) s.uniqueId (f, t) })) := by
  obtain ⟨a, ha, hau⟩ := findIndex_spec h1
  obtain ⟨b, hb, hbu⟩ := findIndex_spec h2
  obtain ⟨hal, -⟩ := List.getElem?_eq_some_iff.1 ha
  obtain ⟨hbl, -⟩ := List.getElem?_eq_some_iff.1 hb
  unfold pushHoppings
  simp only
  rw [if_pos ⟨hal, hbl⟩]
  congr 1
  apply List.ext_getElem?
  intro i
  rw [List.getElem?_modify, List.getElem?_modify, List.getElem?_map]
  rcases hi : sites[i]? with _ | s
  · simp
  · have e1 : findIndex sites t.src = i ↔ t.src = s.uniqueId := by
      constructor
      · intro h
        rw [h, hi] at ha
        simp only [Option.some.injEq] at ha
        rw [ha, hau]
      · intro h
        exact eq_of_uniqueId hd ha hi (by rw [hau, h])
    have e2 : findIndex sites t.dst = i ↔ t.dst = s.uniqueId := by
      constructor
      · intro h
        rw [h, hi] at hb
        simp only [Option.some.injEq] at hb
        rw [hb, hbu]
      · intro h
        exact eq_of_uniqueId hd hb hi (by rw [hbu, h])
    simp only [e1, e2, Option.map_eq_map, Option.map_some, seen]
    by_cases c1 : t.src = s.uniqueId <;> by_cases c2 : t.dst = s.uniqueId <;> simp [c1, c2]

theorem pushAll_ok (ts : List (HoppingFamily K × HoppingTerm)) (sites : List CellSite)
    (hd : (sites.map (·.uniqueId)).Nodup)
    (h : ∀ p ∈ ts, p.2.src ∈ sites.map (·.uniqueId) ∧ p.2.dst ∈ sites.map (·.uniqueId)) :
    pushAll ts sites = .ok (sites.map (fun s =>
      { s with hoppings := s.hoppings ++ ts.flatMap (seen (findIndex sites) s.uniqueId) })) := by
  induction ts generalizing sites with
  | nil => simp [pushAll]
  | cons p ts ih =>
    obtain ⟨f, t⟩ := p
    unfold pushAll
    obtain ⟨h1, h2⟩ := h _ List.mem_cons_self
    simp only at h1 h2
    rw [pushHoppings_ok hd f t h1 h2]
    simp only [Res.bind_ok]
    have hk : (sites.map (fun s =>
      { s with hoppings := s.hoppings ++ seen (findIndex sites) s.uniqueId (f, t) })).map siteKey
        = sites.map siteKey := by simp [siteKey]
    have hu : (sites.map (fun s =>
      { s with hoppings := s.hoppings ++ seen (findIndex sites) s.uniqueId (f, t) })).map
        (·.uniqueId) = sites.map (·.uniqueId) := by simp
    rw [ih _ (by rw [hu]; exact hd) (by
      intro p hp
      rw [hu]
      exact h p (List.mem_cons_of_mem _ hp))]
    have hf : findIndex (sites.map (fun s =>
      { s with hoppings := s.hoppings ++ seen (findIndex sites) s.uniqueId (f, t) }))
        = findIndex sites := funext (fun u => findIndex_congr hk u)
    rw [hf]
    simp

/-! ## max_hoppings -/

theorem foldl_max_spec {α : Type} (g : α → Int) (xs : List α) (r : Int) :
    r ≤ xs.foldl (fun r p => max r (g p)) r ∧
    (∀ p ∈ xs, g p ≤ xs.foldl (fun r p => max r (g p)) r) ∧
    (xs.foldl (fun r p => max r (g p)) r = r ∨
      ∃ p ∈ xs, xs.foldl (fun r p => max r (g p)) r = g p) := by
  induction xs generalizing r with
  | nil => simp
  | cons x xs ih =>
    obtain ⟨h1, h2, h3⟩ := ih (max r (g x))
    simp only [List.foldl_cons, List.mem_cons, forall_eq_or_imp, exists_eq_or_imp]
    refine ⟨by omega, ⟨by omega, h2⟩, ?_⟩
    rcases h3 with h3 | ⟨p, hp, h3⟩
    · rcases Int.le_total r (g x) with h | h
      · right; left; rw [h3]; omega
      · left; rw [h3]; omega
    · exact .inr (.inr ⟨p, hp, h3⟩)

/-- Scalar entries that one term adds to a row of a site with unique id `u`. -/
def termEntries (u : Nat) (p : HoppingFamily K × HoppingTerm) : Nat :=
  (if p.2.src = u then p.1.energy.cols else 0) + (if p.2.dst = u then p.1.energy.rows else 0)

theorem scalarHoppings_eq (hops : List (String × HoppingFamily K)) (s : Sublattice K P) :
    Lattice.scalarHoppings hops s
      = (s.energy.cols : Int) - 1 +
        ((((Lattice.allTerms hops).map (termEntries s.uniqueId)).sum : Nat) : Int) := by
  unfold Lattice.scalarHoppings
  generalize Lattice.allTerms hops = ts
  generalize (s.energy.cols : Int) - 1 = r
  induction ts generalizing r with
  | nil => simp
  | cons p ts ih =>
    simp only [List.foldl_cons, List.map_cons, List.sum_cons]
    rw [ih]
    unfold termEntries
    split <;> split <;> push_cast <;> omega

end Verif.Lattice
