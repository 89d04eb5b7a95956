import Verif.Lattice.Spec
import Mathlib.Data.List.Perm.Basic

set_option linter.dupNamespace false
set_option linter.unusedSectionVars false

namespace Verif.Lattice

variable {K P : Type}

/-! ## Lookups -/

theorem lookup_eq_some {α : Type} {m : List (String × α)} {n : String} {a : α}
    (h : lookup m n = some a) : (n, a) ∈ m := by
  unfold lookup at h
  rcases hf : m.find? (fun p => p.1 == n) with _ | p
  · simp [hf] at h
  · have h1 := List.find?_some hf
    have h2 := List.mem_of_find?_eq_some hf
    simp only [hf, Option.map_some, Option.some.injEq] at h
    simp only [beq_iff_eq] at h1
    obtain ⟨x, y⟩ := p
    simp only at h h1
    subst h h1
    exact h2

theorem lookup_none_iff {α : Type} {m : List (String × α)} {n : String} :
    lookup m n = none ↔ n ∉ m.map (·.1) := by
  unfold lookup
  simp only [Option.map_eq_none_iff, List.find?_eq_none, beq_iff_eq, List.mem_map, not_exists,
    not_and]

theorem lookup_of_mem {α : Type} {m : List (String × α)} {n : String} {a : α}
    (hn : (m.map (·.1)).Nodup) (h : (n, a) ∈ m) : lookup m n = some a := by
  rcases hl : lookup m n with _ | b
  · rw [lookup_none_iff] at hl
    exact absurd (List.mem_map.2 ⟨(n, a), h, rfl⟩) hl
  · have hb := lookup_eq_some hl
    have := List.inj_on_of_nodup_map hn hb h rfl
    simp only [Prod.mk.injEq, true_and] at this
    rw [this]

/-! ## Terms -/

theorem same_comm (a b : HoppingTerm) : a.same b = b.same a := by
  unfold HoppingTerm.same
  congr 1
  apply propext
  simp only [Prod.mk.injEq]
  constructor
  · rintro (⟨h1, h2, h3⟩ | ⟨h1, h2, h3⟩)
    · exact .inl ⟨h1.symm, h2.symm, h3.symm⟩
    · exact .inr ⟨by rw [h1, Index3.neg_neg], h3.symm, h2.symm⟩
  · rintro (⟨h1, h2, h3⟩ | ⟨h1, h2, h3⟩)
    · exact .inl ⟨h1.symm, h2.symm, h3.symm⟩
    · exact .inr ⟨by rw [h1, Index3.neg_neg], h3.symm, h2.symm⟩

theorem same_of_joins {t u : HoppingTerm} {a b : Site} (ht : Joins t a b) (hu : Joins u a b) :
    t.same u = true := by
  unfold HoppingTerm.same
  apply decide_eq_true
  obtain ⟨⟨tx, ty, tz⟩, ts, td⟩ := t
  obtain ⟨⟨ux, uy, uz⟩, us, ud⟩ := u
  obtain ⟨⟨ax, ay, az⟩, as⟩ := a
  obtain ⟨⟨bx, «by», bz⟩, bs⟩ := b
  simp only [Joins, Index3.sub, Index3.mk.injEq, Prod.mk.injEq, Index3.neg] at *
  omega

theorem joins_of_same {t u : HoppingTerm} (h : t.same u = true) (a b : Site) :
    Joins t a b ↔ Joins u a b := by
  unfold HoppingTerm.same at h
  have h := of_decide_eq_true h
  obtain ⟨⟨tx, ty, tz⟩, ts, td⟩ := t
  obtain ⟨⟨ux, uy, uz⟩, us, ud⟩ := u
  obtain ⟨⟨ax, ay, az⟩, as⟩ := a
  obtain ⟨⟨bx, «by», bz⟩, bs⟩ := b
  simp only [Joins, Index3.sub, Index3.mk.injEq, Prod.mk.injEq, Index3.neg] at *
  omega

theorem joins_self_iff (t : HoppingTerm) :
    (∃ a, Joins t a a) ↔ t.rel = Index3.zero ∧ t.src = t.dst := by
  obtain ⟨⟨tx, ty, tz⟩, ts, td⟩ := t
  simp only [Joins, Index3.sub, Index3.zero, Index3.mk.injEq]
  constructor
  · rintro ⟨⟨⟨ax, ay, az⟩, as⟩, h⟩
    simp only at h
    omega
  · rintro ⟨⟨rfl, rfl, rfl⟩, rfl⟩
    exact ⟨⟨⟨0, 0, 0⟩, ts⟩, by simp⟩

theorem joins_ends (t : HoppingTerm) : Joins t ⟨Index3.zero, t.src⟩ ⟨t.rel, t.dst⟩ := by
  left
  simp [Index3.sub, Index3.zero]

namespace Lattice

theorem terms_eq (l : Lattice K P) : terms l = (allTerms l.hops).map (·.2) := by
  unfold terms allTerms
  simp [List.map_flatMap, Function.comp_def]

theorem mem_allTerms {hops : List (String × HoppingFamily K)} {f : HoppingFamily K}
    {t : HoppingTerm} : (f, t) ∈ allTerms hops ↔ ∃ n, (n, f) ∈ hops ∧ t ∈ f.terms := by
  unfold allTerms
  simp only [List.mem_flatMap, List.mem_map, Prod.mk.injEq]
  constructor
  · rintro ⟨p, hp, u, hu, rfl, rfl⟩
    exact ⟨p.1, hp, hu⟩
  · rintro ⟨n, hn, ht⟩
    exact ⟨(n, f), hn, t, ht, rfl, rfl⟩

@[simp] theorem pushTerm_nil (n : String) (t : HoppingTerm) :
    pushTerm ([] : List (String × HoppingFamily K)) n t = [] := rfl

theorem pushTerm_cons (p : String × HoppingFamily K) (hops : List (String × HoppingFamily K))
    (n : String) (t : HoppingTerm) :
    pushTerm (p :: hops) n t =
      (if p.1 = n then (p.1, { p.2 with terms := p.2.terms ++ [t] }) else p) :: pushTerm hops n t :=
  rfl

theorem pushTerm_of_not_mem {hops : List (String × HoppingFamily K)} {n : String}
    (t : HoppingTerm) (h : n ∉ hops.map (·.1)) : pushTerm hops n t = hops := by
  induction hops with
  | nil => rfl
  | cons p hops ih =>
    simp only [List.map_cons, List.mem_cons, not_or] at h
    rw [pushTerm_cons, ih h.2, if_neg (Ne.symm h.1)]

theorem length_pushTerm (hops : List (String × HoppingFamily K)) (n : String) (t : HoppingTerm) :
    (pushTerm hops n t).length = hops.length := by simp [pushTerm]

theorem hopKey_pushTerm (hops : List (String × HoppingFamily K)) (n : String) (t : HoppingTerm) :
    (pushTerm hops n t).map hopKey = hops.map hopKey := by
  unfold pushTerm
  rw [List.map_map]
  apply List.map_congr_left
  intro p _
  simp only [Function.comp_apply]
  split <;> simp [hopKey]

theorem terms_pushTerm {hops : List (String × HoppingFamily K)} {n : String} {t : HoppingTerm}
    (hn : (hops.map (·.1)).Nodup) (h : n ∈ hops.map (·.1)) :
    ((pushTerm hops n t).flatMap (·.2.terms)).Perm (hops.flatMap (·.2.terms) ++ [t]) := by
  induction hops with
  | nil => simp at h
  | cons p hops ih =>
    simp only [List.map_cons, List.nodup_cons] at hn
    rw [pushTerm_cons]
    by_cases hp : p.1 = n
    · rw [if_pos hp, pushTerm_of_not_mem t (hp ▸ hn.1)]
      simp only [List.flatMap_cons, List.append_assoc]
      exact (List.perm_append_left_iff _).2 List.perm_append_comm
    · rw [if_neg hp]
      simp only [List.map_cons, List.mem_cons, Ne.symm hp, false_or] at h
      simp only [List.flatMap_cons, List.append_assoc]
      exact (List.perm_append_left_iff _).2 (ih hn.2 h)

end Lattice

/-! ## Hermitian matrices -/

section
variable [DecidableEq K] [Zero K] [InvolutiveStar K]

theorem checkOnsite_ok {m : Mat K} (h : checkOnsite m = .ok ()) :
    m.rows = m.cols ∧ m.rows ≠ 0 ∧
      (∀ (i : Fin m.rows) (j : Fin m.cols), i.val = j.val → star (m.e i j) = m.e i j) := by
  unfold checkOnsite at h
  split at h
  · simp at h
  · rename_i h1
    split at h
    · simp at h
    · rename_i h2
      split at h
      · simp at h
      · rename_i h3
        refine ⟨by simpa using h1, h2, ?_⟩
        simp only [Bool.not_eq_false] at h3
        exact of_decide_eq_true h3

theorem hermitian_selfadjointUpper {m : Mat K} (h : checkOnsite m = .ok ()) :
    Hermitian (selfadjointUpper m) := by
  obtain ⟨h1, -, h3⟩ := checkOnsite_ok h
  unfold selfadjointUpper
  rw [dif_pos h1]
  refine ⟨h1, ?_⟩
  intro i j
  simp only [Fin.val_cast]
  rcases Nat.lt_trichotomy i.val j.val with hlt | heq | hgt
  · rw [if_pos (by omega), if_neg (by omega), star_star]
    rfl
  · rw [if_pos (by omega), if_pos (by omega)]
    rw [show (m.e (Fin.cast h1.symm j) (Fin.cast h1 i)) = m.e i j from by
      congr 1
      · exact Fin.ext heq.symm
      · exact Fin.ext heq]
    exact (h3 i j heq).symm
  · rw [if_neg (by omega), if_pos (by omega)]

theorem selfadjointUpper_rows (m : Mat K) : (selfadjointUpper m).rows = m.rows := by
  unfold selfadjointUpper; split <;> rfl

theorem selfadjointUpper_cols (m : Mat K) : (selfadjointUpper m).cols = m.cols := by
  unfold selfadjointUpper; split <;> rfl

end

/-! ## The invariant of the building calls -/

/-- What holds after any history of building calls. -/
structure Inv [Star K] (l : Lattice K P) : Prop where
  subIds : ∀ (i : Nat) p, l.subs[i]? = some p → p.2.uniqueId = i
  subNames : (l.subs.map (·.1)).Nodup
  subNonblank : ∀ p ∈ l.subs, p.1 ≠ ""
  onsite : ∀ p ∈ l.subs, Hermitian p.2.energy ∧ p.2.energy.rows ≠ 0
  aliases : ∀ p ∈ l.subs, p.2.aliasId ≤ p.2.uniqueId ∧
    ∃ q, l.subs[p.2.aliasId]? = some q ∧ q.2.energy = p.2.energy
  hopIds : ∀ (i : Nat) p, l.hops[i]? = some p → p.2.familyId = i
  hopNames : (l.hops.map (·.1)).Nodup
  hopNonblank : ∀ p ∈ l.hops, p.1 ≠ ""
  hopSize : ∀ p ∈ l.hops, p.2.energy.rows ≠ 0 ∧ p.2.energy.cols ≠ 0
  distinct : (terms l).Pairwise (fun t u => t.same u = false)
  noSelf : ∀ t ∈ terms l, ¬ (t.rel = Index3.zero ∧ t.src = t.dst)
  ends : ∀ p ∈ l.hops, ∀ t ∈ p.2.terms, ∃ a b, l.subs[t.src]? = some a ∧ l.subs[t.dst]? = some b ∧
    a.2.energy.rows = p.2.energy.rows ∧ b.2.energy.cols = p.2.energy.cols

theorem Inv.empty [Star K] : Inv (Lattice.empty : Lattice K P) := by
  constructor <;> simp [Lattice.empty, terms]

theorem Inv.id_lt [Star K] {l : Lattice K P} (h : Inv l) {n : String} {s : Sublattice K P}
    (hm : (n, s) ∈ l.subs) : l.subs[s.uniqueId]? = some (n, s) := by
  obtain ⟨i, hi⟩ := List.mem_iff_getElem?.1 hm
  have := h.subIds i _ hi
  simp only at this
  rw [this, hi]

section
variable [DecidableEq K] [Zero K]

theorem makeUnique_ok {l : Lattice K P} {name : String} {id : Nat}
    (h : l.makeUniqueSublatticeId name = .ok id) :
    name ≠ "" ∧ name ∉ l.subs.map (·.1) ∧ id = l.subs.length := by
  unfold Lattice.makeUniqueSublatticeId at h
  split at h
  · simp at h
  · rename_i h1
    split at h
    · simp at h
    · rename_i h2
      simp only [Bool.not_eq_true, Option.isSome_eq_false_iff, Option.isNone_iff_eq_none,
        lookup_none_iff] at h2
      simp only [Res.ok.injEq] at h
      exact ⟨h1, h2, h.symm⟩

/-- A rejected or accepted `add_sublattice`. -/
theorem addSublattice_cases [Star K] (l : Lattice K P) (name : String) (position : P) (energy : Mat K) :
    (∃ e, l.addSublattice name position energy = (l, .err e)) ∨
    (checkOnsite energy = .ok () ∧ name ≠ "" ∧ name ∉ l.subs.map (·.1) ∧
      l.addSublattice name position energy =
        (⟨l.subs ++ [(name, ⟨position, selfadjointUpper energy, l.subs.length, l.subs.length⟩)],
          l.hops⟩, .ok ())) := by
  unfold Lattice.addSublattice
  rcases h1 : checkOnsite energy with _ | e | _
  · rcases h2 : l.makeUniqueSublatticeId name with id | e | _
    · obtain ⟨a, b, rfl⟩ := makeUnique_ok h2
      exact .inr ⟨rfl, a, b, rfl⟩
    · exact .inl ⟨e, rfl⟩
    · unfold Lattice.makeUniqueSublatticeId at h2
      split at h2 <;> (try split at h2) <;> simp at h2
  · exact .inl ⟨e, rfl⟩
  · unfold checkOnsite at h1
    split at h1 <;> (try split at h1) <;> (try split at h1) <;> (try split at h1) <;> simp at h1

theorem addAlias_cases (l : Lattice K P) (name orig : String) (position : P) :
    (∃ e, l.addAlias name orig position = (l, .err e)) ∨
    (∃ s, lookup l.subs orig = some s ∧ name ≠ "" ∧ name ∉ l.subs.map (·.1) ∧
      l.addAlias name orig position =
        (⟨l.subs ++ [(name, ⟨position, s.energy, l.subs.length, s.uniqueId⟩)], l.hops⟩, .ok ())) := by
  unfold Lattice.addAlias
  rcases h1 : lookup l.subs orig with _ | s
  · exact .inl ⟨_, rfl⟩
  · rcases h2 : l.makeUniqueSublatticeId name with id | e | _
    · obtain ⟨a, b, rfl⟩ := makeUnique_ok h2
      exact .inr ⟨s, rfl, a, b, rfl⟩
    · exact .inl ⟨e, rfl⟩
    · unfold Lattice.makeUniqueSublatticeId at h2
      split at h2 <;> (try split at h2) <;> simp at h2

theorem register_cases (l : Lattice K P) (name : String) (energy : Mat K) :
    (∃ e, l.registerHoppingEnergy name energy = (l, .err e)) ∨
    (name ≠ "" ∧ energy.rows ≠ 0 ∧ energy.cols ≠ 0 ∧ name ∉ l.hops.map (·.1) ∧
      l.registerHoppingEnergy name energy =
        (⟨l.subs, l.hops ++ [(name, ⟨energy, l.hops.length, []⟩)]⟩, .ok ())) := by
  unfold Lattice.registerHoppingEnergy checkHopping
  by_cases h1 : name = ""
  · exact .inl ⟨_, by rw [if_pos h1]⟩
  · rw [if_neg h1]
    by_cases h2 : energy.rows = 0 ∨ energy.cols = 0
    · rw [if_pos h2]
      exact .inl ⟨_, rfl⟩
    · rw [if_neg h2]
      simp only
      by_cases h3 : (lookup l.hops name).isSome
      · rw [if_pos h3]
        exact .inl ⟨_, rfl⟩
      · rw [if_neg h3]
        simp only [Bool.not_eq_true, Option.isSome_eq_false_iff, Option.isNone_iff_eq_none,
          lookup_none_iff] at h3
        simp only [not_or] at h2
        exact .inr ⟨h1, h2.1, h2.2, h3, rfl⟩

theorem addHopping_cases (l : Lattice K P) (rel : Index3) (src dst family : String) :
    (∃ e, l.addHopping rel src dst family = (l, .err e)) ∨
    (∃ a b f, lookup l.subs src = some a ∧ lookup l.subs dst = some b ∧
      lookup l.hops family = some f ∧ ¬ (src = dst ∧ rel = Index3.zero) ∧
      a.energy.rows = f.energy.rows ∧ b.energy.cols = f.energy.cols ∧
      (∀ t ∈ terms l, HoppingTerm.same ⟨rel, a.uniqueId, b.uniqueId⟩ t = false) ∧
      l.addHopping rel src dst family =
        (⟨l.subs, Lattice.pushTerm l.hops family ⟨rel, a.uniqueId, b.uniqueId⟩⟩, .ok ())) := by
  unfold Lattice.addHopping
  by_cases h0 : src = dst ∧ rel = Index3.zero
  · rw [if_pos h0]
    exact .inl ⟨_, rfl⟩
  · rw [if_neg h0]
    rcases h1 : lookup l.subs src with _ | a
    · exact .inl ⟨_, rfl⟩
    rcases h2 : lookup l.subs dst with _ | b
    · exact .inl ⟨_, rfl⟩
    rcases h3 : lookup l.hops family with _ | f
    · exact .inl ⟨_, rfl⟩
    simp only
    by_cases h4 : a.energy.rows ≠ f.energy.rows ∨ b.energy.cols ≠ f.energy.cols
    · rw [if_pos h4]
      exact .inl ⟨_, rfl⟩
    · rw [if_neg h4]
      by_cases h5 : (Lattice.allTerms l.hops).any (fun p =>
          HoppingTerm.same ⟨rel, a.uniqueId, b.uniqueId⟩ p.2) = true
      · rw [if_pos h5]
        exact .inl ⟨_, rfl⟩
      · rw [if_neg h5]
        simp only [ne_eq, not_or, Decidable.not_not] at h4
        refine .inr ⟨a, b, f, rfl, rfl, rfl, h0, h4.1, h4.2, ?_, rfl⟩
        intro t ht
        rw [Lattice.terms_eq, List.mem_map] at ht
        obtain ⟨p, hp, rfl⟩ := ht
        simp only [Bool.not_eq_true, List.any_eq_false] at h5
        exact h5 p hp

end

theorem Inv.addSub [Star K] {l : Lattice K P} (h : Inv l) {name : String} {s : Sublattice K P}
    (h1 : name ≠ "") (h2 : name ∉ l.subs.map (·.1)) (h3 : s.uniqueId = l.subs.length)
    (h4 : Hermitian s.energy ∧ s.energy.rows ≠ 0)
    (h5 : s.aliasId = s.uniqueId ∨ ∃ q, l.subs[s.aliasId]? = some q ∧ q.2.energy = s.energy) :
    Inv (⟨l.subs ++ [(name, s)], l.hops⟩ : Lattice K P) := by
  have hget : ∀ (i : Nat) p, l.subs[i]? = some p → (l.subs ++ [(name, s)])[i]? = some p := by
    intro i p hp
    obtain ⟨hi, -⟩ := List.getElem?_eq_some_iff.1 hp
    rw [List.getElem?_append_left hi, hp]
  refine ⟨?_, ?_, ?_, ?_, ?_, h.hopIds, h.hopNames, h.hopNonblank, h.hopSize, h.distinct,
    h.noSelf, ?_⟩
  · intro i p hp
    simp only at hp
    rcases Nat.lt_trichotomy i l.subs.length with hi | hi | hi
    · rw [List.getElem?_append_left hi] at hp
      exact h.subIds i p hp
    · subst hi
      simp only [List.getElem?_concat_length, Option.some.injEq] at hp
      subst hp
      exact h3
    · rw [List.getElem?_eq_none (by simp; omega)] at hp
      simp at hp
  · simp only [List.map_append, List.map_cons, List.map_nil]
    exact List.nodup_append.2 ⟨h.subNames, by simp, by
      intro a ha b hb
      simp only [List.mem_singleton] at hb
      subst hb
      rintro rfl
      exact h2 ha⟩
  · intro p hp
    simp only [List.mem_append, List.mem_singleton] at hp
    rcases hp with hp | rfl
    · exact h.subNonblank p hp
    · exact h1
  · intro p hp
    simp only [List.mem_append, List.mem_singleton] at hp
    rcases hp with hp | rfl
    · exact h.onsite p hp
    · exact h4
  · intro p hp
    simp only [List.mem_append, List.mem_singleton] at hp
    rcases hp with hp | rfl
    · obtain ⟨ha, q, hq, hq'⟩ := h.aliases p hp
      exact ⟨ha, q, hget _ _ hq, hq'⟩
    · rcases h5 with h5 | ⟨q, hq, hq'⟩
      · refine ⟨Nat.le_of_eq h5, (name, s), ?_, rfl⟩
        simp only [h5, h3, List.getElem?_concat_length]
      · refine ⟨?_, q, hget _ _ hq, hq'⟩
        obtain ⟨hi, -⟩ := List.getElem?_eq_some_iff.1 hq
        simp only
        omega
  · intro p hp t ht
    obtain ⟨a, b, ha, hb, hr⟩ := h.ends p hp t ht
    exact ⟨a, b, hget _ _ ha, hget _ _ hb, hr⟩

theorem Inv.addFamily [Star K] {l : Lattice K P} (h : Inv l) {name : String} {energy : Mat K}
    (h1 : name ≠ "") (h2 : name ∉ l.hops.map (·.1)) (h3 : energy.rows ≠ 0 ∧ energy.cols ≠ 0) :
    Inv (⟨l.subs, l.hops ++ [(name, ⟨energy, l.hops.length, []⟩)]⟩ : Lattice K P) := by
  have ht : terms (⟨l.subs, l.hops ++ [(name, ⟨energy, l.hops.length, []⟩)]⟩ : Lattice K P)
      = terms l := by simp [terms]
  refine ⟨h.subIds, h.subNames, h.subNonblank, h.onsite, h.aliases, ?_, ?_, ?_, ?_,
    ht ▸ h.distinct, ht ▸ h.noSelf, ?_⟩
  · intro i p hp
    simp only at hp
    rcases Nat.lt_trichotomy i l.hops.length with hi | hi | hi
    · rw [List.getElem?_append_left hi] at hp
      exact h.hopIds i p hp
    · subst hi
      simp only [List.getElem?_concat_length, Option.some.injEq] at hp
      subst hp
      rfl
    · rw [List.getElem?_eq_none (by simp; omega)] at hp
      simp at hp
  · simp only [List.map_append, List.map_cons, List.map_nil]
    exact List.nodup_append.2 ⟨h.hopNames, by simp, by
      intro a ha b hb
      simp only [List.mem_singleton] at hb
      subst hb
      rintro rfl
      exact h2 ha⟩
  · intro p hp
    simp only [List.mem_append, List.mem_singleton] at hp
    rcases hp with hp | rfl
    · exact h.hopNonblank p hp
    · exact h1
  · intro p hp
    simp only [List.mem_append, List.mem_singleton] at hp
    rcases hp with hp | rfl
    · exact h.hopSize p hp
    · exact h3
  · intro p hp t ht
    simp only [List.mem_append, List.mem_singleton] at hp
    rcases hp with hp | rfl
    · exact h.ends p hp t ht
    · simp at ht

theorem getElem?_pushTerm (hops : List (String × HoppingFamily K)) (n : String) (t : HoppingTerm)
    (i : Nat) : (Lattice.pushTerm hops n t)[i]? = hops[i]?.map
      (fun p => if p.1 = n then (p.1, { p.2 with terms := p.2.terms ++ [t] }) else p) := by
  simp [Lattice.pushTerm]

theorem mem_pushTerm {hops : List (String × HoppingFamily K)} {n : String} {t : HoppingTerm}
    {p : String × HoppingFamily K} (h : p ∈ Lattice.pushTerm hops n t) :
    ∃ q ∈ hops, p.1 = q.1 ∧ p.2.energy = q.2.energy ∧ p.2.familyId = q.2.familyId ∧
      (p.2.terms = q.2.terms ∨ (q.1 = n ∧ p.2.terms = q.2.terms ++ [t])) := by
  unfold Lattice.pushTerm at h
  obtain ⟨q, hq, rfl⟩ := List.mem_map.1 h
  refine ⟨q, hq, ?_⟩
  by_cases hn : q.1 = n
  · simp [hn]
  · simp [hn]

theorem names_pushTerm (hops : List (String × HoppingFamily K)) (n : String) (t : HoppingTerm) :
    (Lattice.pushTerm hops n t).map (·.1) = hops.map (·.1) := by
  unfold Lattice.pushTerm
  rw [List.map_map]
  apply List.map_congr_left
  intro p _
  simp only [Function.comp_apply]
  split <;> rfl

theorem Inv.push [Star K] {l : Lattice K P} (h : Inv l) {family : String} {f : HoppingFamily K}
    {t : HoppingTerm} (h1 : lookup l.hops family = some f)
    (h2 : ¬ (t.rel = Index3.zero ∧ t.src = t.dst)) (h3 : ∀ u ∈ terms l, t.same u = false)
    (h4 : ∃ a b, l.subs[t.src]? = some a ∧ l.subs[t.dst]? = some b ∧
      a.2.energy.rows = f.energy.rows ∧ b.2.energy.cols = f.energy.cols) :
    Inv (⟨l.subs, Lattice.pushTerm l.hops family t⟩ : Lattice K P) := by
  have hm := lookup_eq_some h1
  have hp : (terms (⟨l.subs, Lattice.pushTerm l.hops family t⟩ : Lattice K P)).Perm
      (terms l ++ [t]) :=
    Lattice.terms_pushTerm h.hopNames (List.mem_map.2 ⟨_, hm, rfl⟩)
  refine ⟨h.subIds, h.subNames, h.subNonblank, h.onsite, h.aliases, ?_, ?_, ?_, ?_, ?_, ?_, ?_⟩
  · intro i p hi
    simp only [getElem?_pushTerm] at hi
    obtain ⟨q, hq, rfl⟩ := Option.map_eq_some_iff.1 hi
    have := h.hopIds i q hq
    split <;> exact this
  · simp only [names_pushTerm]
    exact h.hopNames
  · intro p hp
    obtain ⟨q, hq, e1, -⟩ := mem_pushTerm hp
    rw [e1]; exact h.hopNonblank q hq
  · intro p hp
    obtain ⟨q, hq, -, e2, -⟩ := mem_pushTerm hp
    rw [e2]; exact h.hopSize q hq
  · refine (List.Perm.pairwise_iff (fun {x y} hxy => ?_) hp).2 ?_
    · rw [same_comm]; exact hxy
    · refine List.pairwise_append.2 ⟨h.distinct, by simp, ?_⟩
      intro a ha b hb
      simp only [List.mem_singleton] at hb
      subst hb
      rw [same_comm]; exact h3 a ha
  · intro u hu
    rcases List.mem_append.1 (hp.mem_iff.1 hu) with hu | hu
    · exact h.noSelf u hu
    · simp only [List.mem_singleton] at hu
      subst hu
      exact h2
  · intro p hp' u hu
    obtain ⟨q, hq, -, e2, -, e4⟩ := mem_pushTerm hp'
    rw [e2]
    rcases e4 with e4 | ⟨e3, e4⟩
    · rw [e4] at hu
      exact h.ends q hq u hu
    · rw [e4] at hu
      rcases List.mem_append.1 hu with hu | hu
      · exact h.ends q hq u hu
      · simp only [List.mem_singleton] at hu
        subst hu
        have : q.2 = f := by
          have hl := lookup_of_mem h.hopNames (n := q.1) (a := q.2) hq
          rw [e3, h1] at hl
          exact (Option.some.inj hl).symm
        rw [this]
        exact h4

section
variable [DecidableEq K] [Zero K] [InvolutiveStar K]

theorem Inv.addHopping {l : Lattice K P} (h : Inv l) (rel : Index3) (src dst family : String) :
    Inv (l.addHopping rel src dst family).1 := by
  rcases addHopping_cases l rel src dst family with ⟨e, he⟩ | ⟨a, b, f, ha, hb, hf, h0, h1, h2, h3, he⟩
  · rw [he]; exact h
  · rw [he]
    have ha' := h.id_lt (lookup_eq_some ha)
    have hb' := h.id_lt (lookup_eq_some hb)
    refine h.push hf ?_ h3 ⟨_, _, ha', hb', h1, h2⟩
    rintro ⟨hr, hs⟩
    simp only at hr hs
    rw [hs, hb'] at ha'
    simp only [Option.some.injEq, Prod.mk.injEq] at ha'
    exact h0 ⟨ha'.1.symm, hr⟩

theorem Inv.register {l : Lattice K P} (h : Inv l) (name : String) (energy : Mat K) :
    Inv (l.registerHoppingEnergy name energy).1 := by
  rcases register_cases l name energy with ⟨e, he⟩ | ⟨h1, h2, h3, h4, he⟩
  · rw [he]; exact h
  · rw [he]; exact h.addFamily h1 h4 ⟨h2, h3⟩

theorem Inv.step {l : Lattice K P} (h : Inv l) (op : Lattice.Op K P) : Inv (l.step op).1 := by
  cases op with
  | addSublattice name position energy =>
    rcases addSublattice_cases l name position energy with ⟨e, he⟩ | ⟨h1, h2, h3, he⟩
    · simp only [Lattice.step, he]; exact h
    · simp only [Lattice.step, he]
      exact h.addSub h2 h3 rfl
        ⟨hermitian_selfadjointUpper h1, by simp [selfadjointUpper_rows, (checkOnsite_ok h1).2.1]⟩
        (.inl rfl)
  | addAlias name orig position =>
    rcases addAlias_cases l name orig position with ⟨e, he⟩ | ⟨s, h1, h2, h3, he⟩
    · simp only [Lattice.step, he]; exact h
    · simp only [Lattice.step, he]
      have hm := lookup_eq_some h1
      exact h.addSub h2 h3 rfl (h.onsite _ hm) (.inr ⟨_, h.id_lt hm, rfl⟩)
  | registerHoppingEnergy name energy => exact h.register name energy
  | addHopping rel src dst family => exact h.addHopping rel src dst family
  | addHoppingEnergy rel src dst energy =>
    simp only [Lattice.step, Lattice.addHoppingEnergy]
    split
    · exact h.addHopping _ _ _ _
    · have := h.register l.anonymousName energy
      split
      · rename_i l' heq
        rw [heq] at this
        exact this.addHopping _ _ _ _
      · rename_i l' r _ heq
        rw [heq] at this
        exact this

theorem Inv.run {l : Lattice K P} (h : Inv l) (ops : List (Lattice.Op K P)) :
    Inv (Lattice.run ops l) := by
  induction ops generalizing l with
  | nil => exact h
  | cons op ops ih => exact ih (h.step op)

theorem Inv.reachable (ops : List (Lattice.Op K P)) : Inv (Lattice.run ops Lattice.empty) :=
  Inv.empty.run ops

/-! ## Extension -/

theorem Extends.refl (l : Lattice K P) : Extends l l := by
  refine ⟨⟨[], by simp⟩, ⟨[], by simp⟩, ?_⟩
  intro i p p' h h'
  rw [h] at h'
  simp only [Option.some.injEq] at h'
  subst h'
  exact ⟨[], by simp⟩

theorem Extends.trans {l l' l'' : Lattice K P} (h : Extends l l') (h' : Extends l' l'') :
    Extends l l'' := by
  obtain ⟨⟨s, hs⟩, ⟨k, hk⟩, ht⟩ := h
  obtain ⟨⟨s', hs'⟩, ⟨k', hk'⟩, ht'⟩ := h'
  refine ⟨⟨s ++ s', by rw [hs', hs, List.append_assoc]⟩,
    ⟨k ++ k', by rw [hk', hk, List.append_assoc]⟩, ?_⟩
  intro i p p'' hp hp''
  have hi : i < l'.hops.length := by
    have h1 : l'.hops.length = l.hops.length + k.length := by
      have := congrArg List.length hk
      simpa using this
    obtain ⟨hi, -⟩ := List.getElem?_eq_some_iff.1 hp
    omega
  obtain ⟨x, hx⟩ := ht i p _ hp (List.getElem?_eq_getElem hi)
  obtain ⟨y, hy⟩ := ht' i _ p'' (List.getElem?_eq_getElem hi) hp''
  exact ⟨x ++ y, by rw [hy, hx, List.append_assoc]⟩

theorem extends_addHopping (l : Lattice K P) (rel : Index3) (src dst family : String) :
    Extends l (l.addHopping rel src dst family).1 := by
  rcases addHopping_cases l rel src dst family with ⟨e, he⟩ | ⟨a, b, f, ha, hb, hf, h0, h1, h2, h3, he⟩
  · rw [he]; exact Extends.refl l
  · rw [he]
    refine ⟨⟨[], by simp⟩, ⟨[], by simp [Lattice.hopKey_pushTerm]⟩, ?_⟩
    intro i p p' hp hp'
    simp only [getElem?_pushTerm, hp, Option.map_some, Option.some.injEq] at hp'
    subst hp'
    split
    · exact ⟨_, rfl⟩
    · exact ⟨[], by simp⟩

theorem extends_register (l : Lattice K P) (name : String) (energy : Mat K) :
    Extends l (l.registerHoppingEnergy name energy).1 := by
  rcases register_cases l name energy with ⟨e, he⟩ | ⟨h1, h2, h3, h4, he⟩
  · rw [he]; exact Extends.refl l
  · rw [he]
    refine ⟨⟨[], by simp⟩, ⟨_, by simp only [List.map_append]; rfl⟩, ?_⟩
    intro i p p' hp hp'
    obtain ⟨hi, -⟩ := List.getElem?_eq_some_iff.1 hp
    simp only [List.getElem?_append_left hi, hp, Option.some.injEq] at hp'
    subst hp'
    exact ⟨[], by simp⟩

theorem extends_addSub (l : Lattice K P) (x : String × Sublattice K P) :
    Extends l (⟨l.subs ++ [x], l.hops⟩ : Lattice K P) := by
  obtain ⟨-, h2, h3⟩ := Extends.refl l
  exact ⟨⟨_, rfl⟩, h2, h3⟩

theorem extends_step (l : Lattice K P) (op : Lattice.Op K P) : Extends l (l.step op).1 := by
  cases op with
  | addSublattice name position energy =>
    rcases addSublattice_cases l name position energy with ⟨e, he⟩ | ⟨h1, h2, h3, he⟩
    · simp only [Lattice.step, he]; exact Extends.refl l
    · simp only [Lattice.step, he]; exact extends_addSub _ _
  | addAlias name orig position =>
    rcases addAlias_cases l name orig position with ⟨e, he⟩ | ⟨s, h1, h2, h3, he⟩
    · simp only [Lattice.step, he]; exact Extends.refl l
    · simp only [Lattice.step, he]; exact extends_addSub _ _
  | registerHoppingEnergy name energy => exact extends_register l name energy
  | addHopping rel src dst family => exact extends_addHopping l rel src dst family
  | addHoppingEnergy rel src dst energy =>
    simp only [Lattice.step, Lattice.addHoppingEnergy]
    split
    · exact extends_addHopping _ _ _ _ _
    · have := extends_register l l.anonymousName energy
      split
      · rename_i l' heq
        rw [heq] at this
        exact this.trans (extends_addHopping _ _ _ _ _)
      · rename_i l' r _ heq
        rw [heq] at this
        exact this

theorem extends_run (l : Lattice K P) (ops : List (Lattice.Op K P)) :
    Extends l (Lattice.run ops l) := by
  induction ops generalizing l with
  | nil => exact Extends.refl l
  | cons op ops ih => exact (extends_step l op).trans (ih _)

end
end Verif.Lattice
