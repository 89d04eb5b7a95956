import Verif.Model.Cache

/-!
# The caching invariant of `Model`
-/

namespace Verif.Model

variable {E : Env}

/-- What `system()` of a model without cached results gives. -/
def sysOf (p : Params E) : Res E.Sys :=
  match fullFoundation p with
  | .ok F =>
    match (pushAll (E.lead F) p.specs []).2 with
    | .ok () => finishSystem p F
    | .err e => .err e
    | .ub => .ub
  | .err e => .err e
  | .ub => .ub

/-- The Hamiltonian for a given system when nothing was evaluated before. -/
def hamOf (p : Params E) (S : E.Sys) : Res E.Ham :=
  if needsComplex p then makeHam p true S
  else
    match makeHam p false S with
    | .err .complexOverride => makeHam p true S
    | r => r

/-- After `create_attachment_area` the constructor of every lead structure succeeds. -/
def LeadsFit (E : Env) : Prop :=
  ∀ (p : Params E) (F : E.Fnd), fullFoundation p = .ok F → ∀ sp ∈ p.specs, ∃ l, E.lead F sp = .ok l

/-- Two outcomes agree: the same exception, or values which agree under `f`. -/
def SameBy {α β : Type} (f : α → β) : Res α → Res α → Prop
  | .ok a, .ok b => f a = f b
  | .err e, .err e' => e = e'
  | .ub, .ub => True
  | _, _ => False

theorem SameBy.refl {α β : Type} (f : α → β) (r : Res α) : SameBy f r r := by
  cases r <;> simp [SameBy]

/-- A Hamiltonian that can be made with a real scalar type is the same matrix when made with the
complex one, and a build that fails for any other reason than complex values fails in the same way. -/
def Coherent (E : Env) : Prop :=
  ∀ d S l os hs k b, E.ham false d S l os hs k b = .err .complexOverride ∨
    SameBy E.value (E.ham true d S l os hs k b) (E.ham false d S l os hs k b)

/-- Everything that is cached is what the current parameters give. -/
structure Inv (s : MState E) : Prop where
  sys : ∀ S, s.sys = some S → sysOf s.p = .ok S
  structs : s.structs ≠ [] ∨ s.sys ≠ none →
    ∃ F, fullFoundation s.p = .ok F ∧ pushAll (E.lead F) s.p.specs [] = (s.structs, .ok ())
  ham : ∀ h, s.ham = some h →
    ∃ S h0, s.sys = some S ∧ hamOf s.p S = .ok h0 ∧ E.value h0 = E.value h

theorem Inv.fresh (p : Params E) : Inv (fresh p) :=
  ⟨by simp [Model.fresh], by simp [Model.fresh], by simp [Model.fresh]⟩

theorem Inv.cleared (s : MState E) : Inv s.clearStructure :=
  ⟨by simp [MState.clearStructure, MState.clearHamiltonian],
    by simp [MState.clearStructure, MState.clearHamiltonian],
    by simp [MState.clearStructure, MState.clearHamiltonian]⟩

theorem pushAll_ok {α β : Type} (f : α → Res β) (xs : List α) (acc : List β)
    (h : ∀ x ∈ xs, ∃ y, f x = .ok y) : (pushAll f xs acc).2 = .ok () := by
  induction xs generalizing acc with
  | nil => rfl
  | cons x xs ih =>
    obtain ⟨y, hy⟩ := h x (by simp)
    simp only [pushAll, hy]
    exact ih _ (fun z hz => h z (by simp [hz]))

theorem pushAll_len {α β : Type} (f : α → Res β) (xs : List α) (acc : List β)
    (h : (pushAll f xs acc).2 = .ok ()) : (pushAll f xs acc).1.length = acc.length + xs.length := by
  induction xs generalizing acc with
  | nil => simp [pushAll]
  | cons x xs ih =>
    rcases hx : f x with y | e | _
    · simp only [pushAll, hx] at h ⊢
      rw [ih _ h]
      simp
      omega
    · simp [pushAll, hx] at h
    · simp [pushAll, hx] at h

theorem fresh_makeSystem (p : Params E) : (fresh p).makeSystem.2 = sysOf p := by
  unfold MState.makeSystem sysOf makeStructure
  simp only [fresh, List.isEmpty_nil, if_true]
  rcases fullFoundation p with F | e | _
  · simp only
    rcases (pushAll (E.lead F) p.specs []).2 with u | e | _ <;> rfl
  · rfl
  · rfl

theorem fresh_system (p : Params E) : (fresh p).system.2 = sysOf p := by
  rw [← fresh_makeSystem p]
  unfold MState.system
  have : (fresh p).sys = none := rfl
  rw [this]
  simp only
  rcases h : (fresh p).makeSystem with ⟨s', S | e | _⟩ <;> rfl

/-- `make_system` on a model satisfying the invariant. -/
theorem makeSystem_spec (hL : LeadsFit E) (s : MState E) (hi : Inv s) (hn : s.sys = none) :
    s.makeSystem.2 = sysOf s.p ∧ s.makeSystem.1.p = s.p ∧ s.makeSystem.1.sys = none ∧
      s.makeSystem.1.ham = s.ham ∧ s.makeSystem.1.lhams = s.lhams ∧
      s.makeSystem.1.override = s.override ∧
      ((∃ F, fullFoundation s.p = .ok F ∧
          pushAll (E.lead F) s.p.specs [] = (s.makeSystem.1.structs, .ok ())) ∨
        (s.makeSystem.1.structs = s.structs ∧ ∀ F, fullFoundation s.p ≠ .ok F)) := by
  rcases hF : fullFoundation s.p with F | e | _
  · have hok := pushAll_ok (E.lead F) s.p.specs [] (hL s.p F hF)
    have hst : makeStructure s.structs F s.p.specs = ((pushAll (E.lead F) s.p.specs []).1, .ok ()) := by
      unfold makeStructure
      by_cases he : s.structs = []
      · simp only [he, List.isEmpty_nil, if_true]
        rw [← hok]
      · obtain ⟨F', hF', hp⟩ := hi.structs (Or.inl he)
        rw [hF] at hF'
        cases hF'
        have : s.structs.isEmpty = false := by simpa using he
        simp [this, hp]
    have hms : s.makeSystem =
        ({ s with structs := (pushAll (E.lead F) s.p.specs []).1 }, finishSystem s.p F) := by
      simp only [MState.makeSystem, hF, hst]
    rw [hms]
    refine ⟨?_, rfl, hn, rfl, rfl, rfl, Or.inl ⟨F, rfl, ?_⟩⟩
    · simp only [sysOf, hF, hok]
    · simp only
      rw [← hok]
  · have hms : s.makeSystem = (s, .err e) := by simp only [MState.makeSystem, hF]
    rw [hms]
    exact ⟨by simp only [sysOf, hF], rfl, hn, rfl, rfl, rfl, Or.inr ⟨rfl, by simp⟩⟩
  · have hms : s.makeSystem = (s, .ub) := by simp only [MState.makeSystem, hF]
    rw [hms]
    exact ⟨by simp only [sysOf, hF], rfl, hn, rfl, rfl, rfl, Or.inr ⟨rfl, by simp⟩⟩

/-- `system()` on a model satisfying the invariant. -/
theorem system_spec (hL : LeadsFit E) (s : MState E) (hi : Inv s) :
    s.system.2 = sysOf s.p ∧ s.system.1.p = s.p ∧ Inv s.system.1 ∧
      (∀ S, s.system.2 = .ok S → s.system.1.sys = some S) ∧ s.system.1.ham = s.ham ∧
      s.system.1.lhams = s.lhams ∧ s.system.1.override = s.override ∧
      (s.sys ≠ none → s.system.1 = s) := by
  rcases hs : s.sys with _ | S
  · obtain ⟨h1, h2, h3, h4, h5, h6, h7⟩ := makeSystem_spec hL s hi hs
    have hham : s.ham = none := by
      rcases h : s.ham with _ | x
      · rfl
      · obtain ⟨S, _, hS, _⟩ := hi.ham x h
        rw [hs] at hS
        cases hS
    have hinv : Inv s.makeSystem.1 := by
      refine ⟨?_, ?_, ?_⟩
      · rw [h3]
        simp
      · rw [h3, h2]
        intro h
        rcases h7 with h7 | ⟨h7, hno⟩
        · exact h7
        · rcases h with h | h
          · rw [h7] at h
            obtain ⟨F, hF, _⟩ := hi.structs (Or.inl h)
            exact absurd hF (hno F)
          · exact absurd rfl h
      · rw [h4, hham]
        simp
    rcases hm : s.makeSystem with ⟨s', S | e | _⟩
    · have hsys : s.system = ({ s' with sys := some S }, .ok S) := by
        simp only [MState.system, hs, hm]
      rw [hm] at h1 h2 h3 h4 h5 h6 h7 hinv
      rw [hsys]
      simp only at h1 h2 h3 h4 h5 h6 h7 hinv ⊢
      refine ⟨h1, h2, ⟨?_, ?_, ?_⟩, ?_, h4, h5, h6, by simp⟩
      · simp only
        intro T hT
        cases hT
        rw [h2]
        exact h1.symm
      · simp only [h2]
        intro _
        rcases h7 with h7 | ⟨_, hno⟩
        · exact h7
        · have : sysOf s.p = .ok S := h1.symm
          unfold sysOf at this
          rcases hF : fullFoundation s.p with F | e | _
          · exact absurd hF (hno F)
          · rw [hF] at this
            cases this
          · rw [hF] at this
            cases this
      · simp only [h4, hham]
        simp
      · intro T hT
        cases hT
        rfl
    · have hsys : s.system = (s', .err e) := by
        simp only [MState.system, hs, hm]
      rw [hm] at h1 h2 h3 h4 h5 h6 h7 hinv
      rw [hsys]
      exact ⟨h1, h2, hinv, by simp, h4, h5, h6, by simp⟩
    · have hsys : s.system = (s', .ub) := by
        simp only [MState.system, hs, hm]
      rw [hm] at h1 h2 h3 h4 h5 h6 h7 hinv
      rw [hsys]
      exact ⟨h1, h2, hinv, by simp, h4, h5, h6, by simp⟩
  · have hsys : s.system = (s, .ok S) := by simp only [MState.system, hs]
    rw [hsys]
    exact ⟨(hi.sys S hs).symm, rfl, hi, by simp [hs], rfl, rfl, rfl, fun _ => rfl⟩

/-- What `hamiltonian()` of a model without cached results gives. -/
def hamRes (p : Params E) : Res E.Ham :=
  match sysOf p with
  | .ok S => hamOf p S
  | .err e => .err e
  | .ub => .ub

/-- `make_hamiltonian` gives the same matrix whatever the override is. -/
theorem makeHamiltonian_spec (hC : Coherent E) (s : MState E) (S : E.Sys) :
    SameBy E.value (s.makeHamiltonian S).2 (hamOf s.p S) ∧ (s.makeHamiltonian S).1.p = s.p ∧
      (s.makeHamiltonian S).1.sys = s.sys ∧ (s.makeHamiltonian S).1.ham = s.ham ∧
      (s.makeHamiltonian S).1.structs = s.structs ∧ (s.makeHamiltonian S).1.lhams = s.lhams := by
  unfold MState.makeHamiltonian hamOf
  by_cases hn : needsComplex s.p = true
  · have : s.isComplex = true := by simp [MState.isComplex, hn]
    simp only [this, hn, if_true]
    exact ⟨SameBy.refl _ _, by simp⟩
  · by_cases ho : s.override = true
    · have : s.isComplex = true := by simp [MState.isComplex, ho]
      simp only [this, hn, if_true]
      refine ⟨?_, by simp⟩
      simp only [Bool.false_eq_true, if_false]
      rcases hC (isDouble s.p) S s.p.lattice s.p.onsite s.p.hopping s.p.wave (simpleBuild s.p) with h | h
      · have h' : makeHam s.p false S = .err .complexOverride := h
        rw [h']
        exact SameBy.refl _ _
      · rcases hm : makeHam s.p false S with x | e | _
        · have : E.ham false _ _ _ _ _ _ _ = _ := hm
          rw [this] at h
          exact h
        · have : E.ham false _ _ _ _ _ _ _ = _ := hm
          rw [this] at h
          cases e <;> first | exact h | exact SameBy.refl _ _
        · have : E.ham false _ _ _ _ _ _ _ = _ := hm
          rw [this] at h
          exact h
    · have : ¬ s.isComplex = true := by
        simp only [Bool.not_eq_true] at hn ho
        simp [MState.isComplex, hn, ho]
      simp only [if_neg this, if_neg hn]
      rcases makeHam s.p false S with x | e | _
      · exact ⟨SameBy.refl _ _, by simp⟩
      · cases e <;> exact ⟨SameBy.refl _ _, by simp⟩
      · exact ⟨SameBy.refl _ _, by simp⟩

/-- `hamiltonian()` on a model satisfying the invariant. -/
theorem hamiltonian_spec (hL : LeadsFit E) (hC : Coherent E) (s : MState E) (hi : Inv s) :
    SameBy E.value s.hamiltonian.2 (hamRes s.p) ∧ s.hamiltonian.1.p = s.p ∧ Inv s.hamiltonian.1 ∧
      (∀ h, s.hamiltonian.2 = .ok h → s.hamiltonian.1.ham = some h) ∧
      (s.ham = none ∨ s.hamiltonian.1 = s) ∧
      s.hamiltonian.1.structs = s.system.1.structs ∧
      s.hamiltonian.1.sys = s.system.1.sys ∧ s.hamiltonian.1.lhams = s.lhams := by
  obtain ⟨h1, h2, h3, h4, h5, h6, h7, h8⟩ := system_spec hL s hi
  rcases hs : s.system with ⟨s', S | e | _⟩
  · rw [hs] at h1 h2 h3 h4 h5 h6 h7 h8
    simp only at h1 h2 h3 h4 h5 h6 h7 h8
    have hres : hamRes s.p = hamOf s.p S := by simp only [hamRes, ← h1]
    rcases hh : s'.ham with _ | h
    · obtain ⟨k1, k2, k3, k4, k5, k6⟩ := makeHamiltonian_spec hC s' S
      rcases hm : s'.makeHamiltonian S with ⟨s2, h | e | _⟩
      · have he : s.hamiltonian = ({ s2 with ham := some h }, .ok h) := by
          simp only [MState.hamiltonian, hs, hh, hm]
        rw [hm] at k1 k2 k3 k4 k5 k6
        simp only at k1 k2 k3 k4 k5 k6
        rw [he]
        simp only
        rw [h2] at k1
        refine ⟨by rw [hres]; exact k1, k2.trans h2, ⟨?_, ?_, ?_⟩, by simp, ?_, k5, k3, k6.trans h6⟩
        · intro T hT
          have := h3.sys T (k3 ▸ hT)
          simp only [k2]
          exact this
        · have := h3.structs
          simp only [k2, k3, k5]
          exact this
        · intro x hx
          simp only at hx
          cases hx
          simp only [k2, k3]
          have hS := h4 S rfl
          refine ⟨S, ?_⟩
          rw [h2]
          rcases hk : hamOf s.p S with h0 | e | _
          · rw [hk] at k1
            exact ⟨h0, hS, rfl, k1.symm⟩
          · rw [hk] at k1
            exact k1.elim
          · rw [hk] at k1
            exact k1.elim
        · left
          rw [← h5]
          exact hh
      · have he : s.hamiltonian = (s2, .err e) := by
          simp only [MState.hamiltonian, hs, hh, hm]
        rw [hm] at k1 k2 k3 k4 k5 k6
        simp only at k1 k2 k3 k4 k5 k6
        rw [he]
        rw [h2] at k1
        refine ⟨by rw [hres]; exact k1, k2.trans h2, ⟨?_, ?_, ?_⟩, by simp, Or.inl (h5 ▸ hh), k5, k3,
          k6.trans h6⟩
        · rw [k2, k3]
          exact h3.sys
        · rw [k2, k3, k5]
          exact h3.structs
        · rw [k4, hh]
          simp
      · have he : s.hamiltonian = (s2, .ub) := by
          simp only [MState.hamiltonian, hs, hh, hm]
        rw [hm] at k1 k2 k3 k4 k5 k6
        simp only at k1 k2 k3 k4 k5 k6
        rw [he]
        rw [h2] at k1
        refine ⟨by rw [hres]; exact k1, k2.trans h2, ⟨?_, ?_, ?_⟩, by simp, Or.inl (h5 ▸ hh), k5, k3,
          k6.trans h6⟩
        · rw [k2, k3]
          exact h3.sys
        · rw [k2, k3, k5]
          exact h3.structs
        · rw [k4, hh]
          simp
    · have he : s.hamiltonian = (s', .ok h) := by simp only [MState.hamiltonian, hs, hh]
      rw [he]
      have hsh : s.ham = some h := by rw [← h5]; exact hh
      obtain ⟨S0, h0, hS0, hh0, hv⟩ := hi.ham h hsh
      have hss : s' = s := h8 (by rw [hS0]; simp)
      have hSS : S0 = S := by
        have := hi.sys S0 hS0
        rw [← h1] at this
        cases this
        rfl
      subst hSS
      refine ⟨?_, h2, h3, by simp [hh], Or.inr hss, rfl, rfl, h6⟩
      rw [hres, hh0]
      exact hv.symm
  · rw [hs] at h1 h2 h3 h4 h5 h6 h7 h8
    have he : s.hamiltonian = (s', .err e) := by simp only [MState.hamiltonian, hs]
    rw [he]
    simp only at h1 h2 h3 h4 h5 h6 h7 h8
    have hham : s.ham = none := by
      rcases h : s.ham with _ | x
      · rfl
      · obtain ⟨S, _, hS, _⟩ := hi.ham x h
        have := hi.sys S hS
        rw [← h1] at this
        cases this
    exact ⟨by simp only [hamRes, ← h1]; exact SameBy.refl _ _, h2, h3, by simp, Or.inl hham, rfl, rfl, h6⟩
  · rw [hs] at h1 h2 h3 h4 h5 h6 h7 h8
    have he : s.hamiltonian = (s', .ub) := by simp only [MState.hamiltonian, hs]
    rw [he]
    simp only at h1 h2 h3 h4 h5 h6 h7 h8
    have hham : s.ham = none := by
      rcases h : s.ham with _ | x
      · rfl
      · obtain ⟨S, _, hS, _⟩ := hi.ham x h
        have := hi.sys S hS
        rw [← h1] at this
        cases this
    exact ⟨by simp only [hamRes, ← h1]; exact SameBy.refl _ _, h2, h3, by simp, Or.inl hham, rfl, rfl, h6⟩

/-- A change that keeps the structure part of the parameters keeps the system. -/
theorem sysOf_congr {p q : Params E} (hl : p.lattice = q.lattice) (h1 : p.sreg = q.sreg)
    (h2 : p.hreg = q.hreg) (h3 : p.primitive = q.primitive) (h4 : p.shape = q.shape)
    (h5 : p.symmetry = q.symmetry) (h6 : p.smods = q.smods) (h7 : p.specs = q.specs) :
    fullFoundation p = fullFoundation q ∧ sysOf p = sysOf q := by
  obtain ⟨a, b, c, d, e, f, g, h, i, j, k⟩ := p
  obtain ⟨a', b', c', d', e', f', g', h', i', j', k'⟩ := q
  simp only at hl h1 h2 h3 h4 h5 h6 h7
  subst hl h1 h2 h3 h4 h5 h6 h7
  exact ⟨rfl, rfl⟩

/-- Clearing the Hamiltonian after a change of its own parameters keeps the invariant. -/
theorem Inv.clearedHam (s : MState E) (hi : Inv s) (k : E.Wave) (os : List E.Onsite) (hs : List E.Hop) :
    Inv (MState.clearHamiltonian { s with p := { s.p with wave := k, onsite := os, hopping := hs } }) :=
  ⟨hi.sys, hi.structs, by simp [MState.clearHamiltonian]⟩

/-- Reading calls. -/
def Op.isRead : Op E → Bool
  | .system | .hamiltonian | .leads | .eval => true
  | _ => false

/-- The two calls which remove modifiers. -/
def Op.isClear : Op E → Bool
  | .clearSMods | .clearHMods => true
  | _ => false

/-- A history without calls that remove modifiers and in which no change was rejected except,
possibly, by `attach_lead`.  Reads may throw. -/
def Clean : MState E → List (Op E) → Prop
  | _, [] => True
  | s, op :: rest =>
    (op.isRead = true ∨ (∃ d q, op = .attachLead d q) ∨
      (op.isClear = false ∧ (s.step op).2 = .ok ())) ∧ Clean (s.step op).1 rest

/-- The lead Hamiltonians are not part of the invariant. -/
theorem Inv.withLhams {s : MState E} (hi : Inv s) (l : List E.LHam) : Inv { s with lhams := l } :=
  ⟨hi.sys, hi.structs, hi.ham⟩

theorem inv_leads (hL : LeadsFit E) (hC : Coherent E) (s : MState E) (hi : Inv s) :
    Inv s.leads.1 ∧ s.leads.1.p = s.p := by
  obtain ⟨h1, h2, h3, -⟩ := system_spec hL s hi
  unfold MState.leads
  rcases hs : s.system with ⟨s', S | e | _⟩
  · rw [hs] at h1 h2 h3
    obtain ⟨k1, k2, k3, -⟩ := hamiltonian_spec hL hC s' h3
    simp only
    rcases hh : s'.hamiltonian with ⟨s2, h | e | _⟩
    · rw [hh] at k1 k2 k3
      simp only
      rcases (makeLeadHams s2.lhams s2.structs s2.p (isDouble s2.p) s2.isComplex).2 with u | e | _
      · exact ⟨k3.withLhams _, k2.trans h2⟩
      · exact ⟨k3.withLhams _, k2.trans h2⟩
      · exact ⟨k3.withLhams _, k2.trans h2⟩
    · rw [hh] at k1 k2 k3
      exact ⟨k3, k2.trans h2⟩
    · rw [hh] at k1 k2 k3
      exact ⟨k3, k2.trans h2⟩
  · rw [hs] at h1 h2 h3
    exact ⟨h3, h2⟩
  · rw [hs] at h1 h2 h3
    exact ⟨h3, h2⟩

theorem inv_eval (hL : LeadsFit E) (hC : Coherent E) (s : MState E) (hi : Inv s) :
    Inv s.eval.1 ∧ s.eval.1.p = s.p := by
  obtain ⟨h1, h2, h3, -⟩ := system_spec hL s hi
  unfold MState.eval
  rcases hs : s.system with ⟨s', S | e | _⟩
  · rw [hs] at h1 h2 h3
    obtain ⟨k1, k2, k3, -⟩ := hamiltonian_spec hL hC s' h3
    simp only
    rcases hh : s'.hamiltonian with ⟨s2, h | e | _⟩
    · rw [hh] at k1 k2 k3
      simp only at k2 k3 ⊢
      obtain ⟨l1, l2⟩ := inv_leads hL hC s2 k3
      rcases hl : s2.leads with ⟨s3, h | e | _⟩ <;> rw [hl] at l1 l2 <;>
        exact ⟨l1, l2.trans (k2.trans h2)⟩
    · rw [hh] at k1 k2 k3
      exact ⟨k3, k2.trans h2⟩
    · rw [hh] at k1 k2 k3
      exact ⟨k3, k2.trans h2⟩
  · rw [hs] at h1 h2 h3
    exact ⟨h3, h2⟩
  · rw [hs] at h1 h2 h3
    exact ⟨h3, h2⟩

theorem inv_step (hL : LeadsFit E) (hC : Coherent E) (s : MState E) (hi : Inv s) (op : Op E)
    (hop : op.isRead = true ∨ (∃ d q, op = .attachLead d q) ∨
      (op.isClear = false ∧ (s.step op).2 = .ok ())) : Inv (s.step op).1 := by
  cases op with
  | addPrimitive q =>
    simp [Op.isRead, Op.isClear, MState.step, MState.addPrimitive] at hop ⊢
    by_cases h : tooManyDims (E.ndim s.p.lattice) q = true
    · simp [h] at hop
    · simp only [Bool.not_eq_true] at h
      simp only [h]
      exact Inv.cleared _
  | addShape q =>
    simp [Op.isRead, Op.isClear, MState.step, MState.addShape] at hop ⊢
    rcases h : E.setOffset s.p.lattice q with l | e | _
    · exact Inv.cleared _
    · simp [h] at hop
    · simp [h] at hop
  | addSymmetry q => exact Inv.cleared _
  | attachLead d q =>
    simp only [MState.step, MState.attachLead]
    by_cases h1 : d = 0
    · simp only [h1, if_true]; exact hi
    · by_cases h2 : E.ndim s.p.lattice = 1
      · simp only [h1, h2, if_true, if_false]; exact hi
      · by_cases h3 : d.natAbs > E.ndim s.p.lattice
        · simp only [h1, h2, h3, if_true, if_false]; exact hi
        · simp only [h1, h2, h3, if_false]
          exact Inv.cleared _
  | addState m => exact Inv.cleared _
  | addPos m => exact Inv.cleared _
  | addOnsite m => exact Inv.clearedHam s hi s.p.wave _ s.p.hopping
  | addHop m => exact Inv.clearedHam s hi s.p.wave s.p.onsite _
  | addSGen g =>
    simp [Op.isRead, Op.isClear, MState.step, MState.addSGen] at hop ⊢
    rcases h : E.registerSite s.p.sreg g with l | e | _
    · exact Inv.cleared _
    · simp [h] at hop
    · simp [h] at hop
  | addHGen g =>
    simp [Op.isRead, Op.isClear, MState.step, MState.addHGen] at hop ⊢
    rcases h : E.registerHop s.p.hreg g with l | e | _
    · exact Inv.cleared _
    · simp [h] at hop
    · simp [h] at hop
  | setWave k =>
    simp only [MState.step, MState.setWave]
    by_cases h : @decide (s.p.wave = k) (E.waveEq _ _) = true
    · rw [if_pos h]; exact hi
    · rw [if_neg h]
      exact Inv.clearedHam s hi k s.p.onsite s.p.hopping
  | clearSMods => simp [Op.isRead, Op.isClear] at hop
  | clearHMods => simp [Op.isRead, Op.isClear] at hop
  | system => exact (system_spec hL s hi).2.2.1
  | hamiltonian => exact (hamiltonian_spec hL hC s hi).2.2.1
  | leads => exact (inv_leads hL hC s hi).1
  | eval => exact (inv_eval hL hC s hi).1

theorem inv_run (hL : LeadsFit E) (hC : Coherent E) (ops : List (Op E)) (s : MState E) (hi : Inv s)
    (hc : Clean s ops) : Inv (run s ops) := by
  induction ops generalizing s with
  | nil => exact hi
  | cons op rest ih => exact ih _ (inv_step hL hC s hi op hc.1) hc.2

theorem fresh_hamiltonian (hL : LeadsFit E) (p : Params E) :
    (fresh p).hamiltonian.2 = hamRes p := by
  obtain ⟨h1, h2, -, -, h5, -, h7, -⟩ := system_spec hL (fresh p) (Inv.fresh p)
  have h1' : (fresh p).system.2 = sysOf p := h1
  unfold MState.hamiltonian hamRes
  rcases hs : (fresh p).system with ⟨s', S | e | _⟩
  · rw [hs] at h1' h2 h5 h7
    simp only at h1' h2 h5 h7
    have hh : s'.ham = none := h5
    have ho : s'.override = false := h7
    have hp : s'.p = p := h2
    simp only [← h1', hh]
    unfold MState.makeHamiltonian hamOf MState.isComplex
    rw [hp, ho]
    simp only [Bool.or_false]
    by_cases hn : needsComplex p = true
    · simp only [hn, if_true]
      rcases makeHam p true S with h | e | _ <;> rfl
    · simp only [if_neg hn]
      rcases makeHam p false S with h | e | _
      · rfl
      · cases e <;> try rfl
        simp only
        rcases makeHam p true S with h | e | _ <;> rfl
      · rfl
  · rw [hs] at h1'
    simp only [← h1']
  · rw [hs] at h1'
    simp only [← h1']

end Verif.Model
