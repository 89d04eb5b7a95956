import Verif.Model.CacheInv

/-!
# The caching invariant of the lead Hamiltonians
-/

namespace Verif.Model

variable {E : Env}

/-- The Hamiltonians of a lead can always be made, and are the same matrices for both scalar types. -/
def LeadHamsFit (E : Env) : Prop :=
  ∀ d l lat os hs, ∃ a b, E.leadHam false d l lat os hs = .ok a ∧ E.leadHam true d l lat os hs = .ok b ∧
    E.leadValue a = E.leadValue b

/-- The lead Hamiltonians stand for the matrices made with the current parameters. -/
def LeadVals (p : Params E) (structs : List E.Lead) (lhams : List E.LHam) : Prop :=
  lhams.length = structs.length ∧
    ∀ (i : Nat) l h, structs[i]? = some l → lhams[i]? = some h → ∃ h0,
      E.leadHam true (isDouble p) l p.lattice p.onsite p.hopping = .ok h0 ∧
        E.leadValue h = E.leadValue h0

/-- Lead Hamiltonians are cached only together with the Hamiltonian. -/
def InvL (s : MState E) : Prop :=
  s.lhams ≠ [] → s.ham ≠ none ∧ LeadVals s.p s.structs s.lhams

theorem InvL.fresh (p : Params E) : InvL (fresh p) := by simp [InvL, Model.fresh]

theorem InvL.clearedHam (s : MState E) : InvL s.clearHamiltonian := by
  simp [InvL, MState.clearHamiltonian]

theorem InvL.cleared (s : MState E) : InvL s.clearStructure := InvL.clearedHam _

theorem pushAll_vals {β γ α : Type} (f g : α → Res β) (v : β → γ)
    (hf : ∀ x, ∃ a b, f x = .ok a ∧ g x = .ok b ∧ v a = v b) (xs : List α) (acc : List β) :
    ∃ ys, pushAll f xs acc = (acc ++ ys, .ok ()) ∧ ys.length = xs.length ∧
      ∀ (i : Nat) x y, xs[i]? = some x → ys[i]? = some y → ∃ y0, g x = .ok y0 ∧ v y = v y0 := by
  induction xs generalizing acc with
  | nil => exact ⟨[], by simp [pushAll]⟩
  | cons x xs ih =>
    obtain ⟨a, b, ha, hb, hv⟩ := hf x
    obtain ⟨ys, h1, h2, h3⟩ := ih (acc ++ [a])
    refine ⟨a :: ys, ?_, by simp [h2], ?_⟩
    · simp only [pushAll, ha, h1]
      simp
    · intro i x' y' hx hy
      cases i with
      | zero =>
        simp only [List.getElem?_cons_zero, Option.some.injEq] at hx hy
        subst hx hy
        exact ⟨b, hb, hv⟩
      | succ i =>
        simp only [List.getElem?_cons_succ] at hx hy
        exact h3 i x' y' hx hy

theorem makeLeadHams_spec (hH : LeadHamsFit E) (p : Params E) (structs : List E.Lead) (cplx : Bool) :
    ∃ hs, makeLeadHams [] structs p (isDouble p) cplx = (hs, .ok ()) ∧ LeadVals p structs hs := by
  unfold makeLeadHams
  simp only [List.isEmpty_nil, if_true]
  obtain ⟨ys, h1, h2, h3⟩ := pushAll_vals
    (fun l => E.leadHam cplx (isDouble p) l p.lattice p.onsite p.hopping)
    (fun l => E.leadHam true (isDouble p) l p.lattice p.onsite p.hopping) E.leadValue
    (by
      intro l
      obtain ⟨a, b, ha, hb, hv⟩ := hH (isDouble p) l p.lattice p.onsite p.hopping
      cases cplx
      · exact ⟨a, b, ha, hb, hv⟩
      · exact ⟨b, b, hb, hb, rfl⟩) structs []
  exact ⟨ys, by simpa using h1, h2, h3⟩

theorem invL_system (hL : LeadsFit E) (s : MState E) (hi : Inv s) (hl : InvL s) : InvL s.system.1 := by
  obtain ⟨-, h2, -, -, h5, h6, -, h8⟩ := system_spec hL s hi
  intro hne
  rw [h6] at hne
  have hk := hl hne
  have hsys : s.sys ≠ none := by
    rcases hh : s.ham with _ | h
    · exact absurd hh hk.1
    · obtain ⟨S, _, hS, _⟩ := hi.ham h hh
      rw [hS]
      simp
  rw [h8 hsys]
  exact hk

theorem invL_hamiltonian (hL : LeadsFit E) (hC : Coherent E) (s : MState E) (hi : Inv s)
    (hl : InvL s) : InvL s.hamiltonian.1 := by
  obtain ⟨-, -, -, -, h5, -, -, h8⟩ := hamiltonian_spec hL hC s hi
  intro hne
  rw [h8] at hne
  have hk := hl hne
  rcases h5 with h5 | h5
  · exact absurd h5 hk.1
  · rw [h5]
    exact hk

/-- `leads()` on a model satisfying the invariants. -/
theorem leads_spec (hL : LeadsFit E) (hC : Coherent E) (hH : LeadHamsFit E) (s : MState E) (hi : Inv s)
    (hl : InvL s) : InvL s.leads.1 ∧
      (outcome s.leads.2 = outcome (hamRes s.p)) ∧
      ∀ r, s.leads.2 = .ok r →
        (∃ F, fullFoundation s.p = .ok F ∧ pushAll (E.lead F) s.p.specs [] = (r.1, .ok ())) ∧
        LeadVals s.p r.1 r.2 := by
  obtain ⟨h1, h2, h3, h4, h5, h6, h7, h8⟩ := system_spec hL s hi
  have hl2 := invL_system hL s hi hl
  unfold MState.leads
  rcases hs : s.system with ⟨s', S | e | _⟩
  · rw [hs] at h1 h2 h3 h4 h5 h6 h7 h8 hl2
    simp only at h1 h2 h3 h4 h5 h6 h7 h8 hl2
    obtain ⟨k1, k2, k3, k4, k5, k6, k7, k8⟩ := hamiltonian_spec hL hC s' h3
    have hl3 := invL_hamiltonian hL hC s' h3 hl2
    have hss : s'.system = (s', .ok S) := by simp only [MState.system, h4 S rfl]
    simp only
    rcases hh : s'.hamiltonian with ⟨s2, h | e | _⟩
    · rw [hh] at k1 k2 k3 k4 k5 k6 k7 k8 hl3
      simp only at k1 k2 k3 k4 k5 k6 k7 k8 hl3 ⊢
      have hsys : s2.sys ≠ none := by
        rw [k7, hss]
        simp [h4 S rfl]
      obtain ⟨F, hF, hst⟩ := k3.structs (Or.inr hsys)
      have hp : s2.p = s.p := k2.trans h2
      rw [hp] at hF hst
      have hlv : ∃ hs, makeLeadHams s2.lhams s2.structs s2.p (isDouble s2.p) s2.isComplex = (hs, .ok ()) ∧
          LeadVals s2.p s2.structs hs := by
        by_cases he : s2.lhams = []
        · rw [he]
          exact makeLeadHams_spec hH s2.p s2.structs s2.isComplex
        · refine ⟨s2.lhams, ?_, (hl3 he).2⟩
          unfold makeLeadHams
          have : s2.lhams.isEmpty = false := by simpa using he
          simp [this]
      obtain ⟨hs', hm, hv⟩ := hlv
      rw [hm]
      simp only
      refine ⟨?_, ?_, ?_⟩
      · intro _
        exact ⟨by simp [k4 h rfl], hv⟩
      · rw [← h2]
        rcases hr : hamRes s'.p with x | e | _
        · rfl
        · rw [hr] at k1
          exact k1.elim
        · rw [hr] at k1
          exact k1.elim
      · intro r hr
        cases hr
        exact ⟨⟨F, hF, hst⟩, hp ▸ hv⟩
    · rw [hh] at k1 hl3
      simp only at k1 hl3 ⊢
      refine ⟨hl3, ?_, by simp⟩
      rw [← h2]
      rcases hr : hamRes s'.p with x | e' | _
      · rw [hr] at k1
        exact k1.elim
      · rw [hr] at k1
        simp only [outcome]
        have : e = e' := k1
        rw [this]
      · rw [hr] at k1
        exact k1.elim
    · rw [hh] at k1 hl3
      simp only at k1 hl3 ⊢
      refine ⟨hl3, ?_, by simp⟩
      rw [← h2]
      rcases hr : hamRes s'.p with x | e' | _
      · rw [hr] at k1
        exact k1.elim
      · rw [hr] at k1
        exact k1.elim
      · rfl
  · rw [hs] at h1 hl2
    simp only at h1 hl2 ⊢
    exact ⟨hl2, by simp [hamRes, ← h1, outcome], by simp⟩
  · rw [hs] at h1 hl2
    simp only at h1 hl2 ⊢
    exact ⟨hl2, by simp [hamRes, ← h1, outcome], by simp⟩

theorem invL_eval (hL : LeadsFit E) (hC : Coherent E) (hH : LeadHamsFit E) (s : MState E) (hi : Inv s)
    (hl : InvL s) : InvL s.eval.1 := by
  obtain ⟨-, -, h3, -⟩ := system_spec hL s hi
  have l1 := invL_system hL s hi hl
  unfold MState.eval
  rcases hs : s.system with ⟨s', S | e | _⟩
  · rw [hs] at h3 l1
    simp only
    obtain ⟨-, -, k3, -⟩ := hamiltonian_spec hL hC s' h3
    have l2 := invL_hamiltonian hL hC s' h3 l1
    rcases hh : s'.hamiltonian with ⟨s2, h | e | _⟩
    · rw [hh] at k3 l2
      simp only
      have l3 := (leads_spec hL hC hH s2 k3 l2).1
      rcases hq : s2.leads with ⟨s3, h | e | _⟩ <;> rw [hq] at l3 <;> exact l3
    · rw [hh] at l2
      exact l2
    · rw [hh] at l2
      exact l2
  · rw [hs] at l1
    exact l1
  · rw [hs] at l1
    exact l1

theorem invL_step (hL : LeadsFit E) (hC : Coherent E) (hH : LeadHamsFit E) (s : MState E) (hi : Inv s)
    (hl : InvL s) (op : Op E)
    (hop : op.isRead = true ∨ (∃ d q, op = .attachLead d q) ∨
      (op.isClear = false ∧ (s.step op).2 = .ok ())) : InvL (s.step op).1 := by
  cases op with
  | addPrimitive q =>
    simp [Op.isRead, Op.isClear, MState.step, MState.addPrimitive] at hop ⊢
    by_cases h : tooManyDims (E.ndim s.p.lattice) q = true
    · simp [h] at hop
    · simp only [Bool.not_eq_true] at h
      simp only [h]
      exact InvL.cleared _
  | addShape q =>
    simp [Op.isRead, Op.isClear, MState.step, MState.addShape] at hop ⊢
    rcases h : E.setOffset s.p.lattice q with l | e | _
    · exact InvL.cleared _
    · simp [h] at hop
    · simp [h] at hop
  | addSymmetry q => exact InvL.cleared _
  | attachLead d q =>
    simp only [MState.step, MState.attachLead]
    by_cases h1 : d = 0
    · simp only [h1, if_true]; exact hl
    · by_cases h2 : E.ndim s.p.lattice = 1
      · simp only [h1, h2, if_true, if_false]; exact hl
      · by_cases h3 : d.natAbs > E.ndim s.p.lattice
        · simp only [h1, h2, h3, if_true, if_false]; exact hl
        · simp only [h1, h2, h3, if_false]
          exact InvL.cleared _
  | addState m => exact InvL.cleared _
  | addPos m => exact InvL.cleared _
  | addOnsite m => exact InvL.clearedHam _
  | addHop m => exact InvL.clearedHam _
  | addSGen g =>
    simp [Op.isRead, Op.isClear, MState.step, MState.addSGen] at hop ⊢
    rcases h : E.registerSite s.p.sreg g with l | e | _
    · exact InvL.cleared _
    · simp [h] at hop
    · simp [h] at hop
  | addHGen g =>
    simp [Op.isRead, Op.isClear, MState.step, MState.addHGen] at hop ⊢
    rcases h : E.registerHop s.p.hreg g with l | e | _
    · exact InvL.cleared _
    · simp [h] at hop
    · simp [h] at hop
  | setWave k =>
    simp only [MState.step, MState.setWave]
    by_cases h : @decide (s.p.wave = k) (E.waveEq _ _) = true
    · rw [if_pos h]; exact hl
    · rw [if_neg h]
      exact InvL.clearedHam _
  | clearSMods => simp [Op.isRead, Op.isClear] at hop
  | clearHMods => simp [Op.isRead, Op.isClear] at hop
  | system => exact invL_system hL s hi hl
  | hamiltonian => exact invL_hamiltonian hL hC s hi hl
  | leads => exact (leads_spec hL hC hH s hi hl).1
  | eval => exact invL_eval hL hC hH s hi hl

theorem invL_run (hL : LeadsFit E) (hC : Coherent E) (hH : LeadHamsFit E) (ops : List (Op E))
    (s : MState E) (hi : Inv s) (hl : InvL s) (hc : Clean s ops) : InvL (run s ops) := by
  induction ops generalizing s with
  | nil => exact hl
  | cons op rest ih =>
    exact ih _ (inv_step hL hC s hi op hc.1) (invL_step hL hC hH s hi hl op hc.1) hc.2

end Verif.Model
