import Verif.Model.LeadInv
import Verif.Lattice.Props

/-!
# C37 and C38: lazily evaluated results are never stale; rejected calls
-/

namespace Verif.Model

variable {E : Env}

/-! ## A small environment for the examples and counterexamples

Every step records its arguments, so different parameters give different results. -/

/-- Tag a modifier. -/
def toyTag (n m : Nat) (xs : List Nat) : Res (List Nat) := .ok (xs ++ [n, m])

/-- Onsite modifier 7 returns complex values; a lead in direction 2 has no valid Hamiltonian when
hopping modifier 9 is used; the offset may be at most 5; shape 0 and symmetry 0 mean none. -/
@[reducible] def toy : Env where
  Lat := Nat
  Shp := Nat
  Sym := Nat
  Wave := Nat
  State := Nat
  Pos := Nat
  SGen := Nat
  HGen := Nat
  Onsite := Nat
  Hop := Nat
  SReg := List Nat
  HReg := List Nat
  Fnd := List Nat
  Sys := List Nat
  Ham := Bool × List Nat
  Lead := List Nat
  LHam := List Nat
  Val := List Nat
  LVal := List Nat
  waveEq := inferInstance
  ndim _ := 2
  hasShape q := decide (q ≠ 0)
  hasSym q := decide (q ≠ 0)
  setOffset l q := if l + q ≤ 5 then .ok (l + q) else .err .logicError
  registerSite r g := if r.contains g then .err .logicError else .ok (r ++ [g])
  registerHop r g := if r.contains g then .err .logicError else .ok (r ++ [g])
  siteComplex _ := false
  hopComplex _ := false
  onsiteComplex _ := false
  hoppingComplex _ := false
  onsiteDouble _ := false
  hoppingDouble _ := false
  foundation l q := match q with
    | .inl q => .ok [l, q.x, q.y, q.z]
    | .inr q => .ok [l, q]
  applySym := toyTag 101
  applyState := toyTag 102
  applyPos := toyTag 103
  attach F sp := toyTag 104 sp.1.natAbs F
  lead F sp := .ok (F ++ [sp.1.natAbs])
  populate r r' F _ := .ok (r ++ r' ++ F)
  sysState := toyTag 105
  sysPos := toyTag 106
  sysSGen := toyTag 107
  sysHGen := toyTag 108
  finish := .ok
  ham c _ S l os hs k b :=
    if c = false ∧ 7 ∈ os then .err .complexOverride
    else .ok (c, S ++ [l] ++ os ++ hs ++ [k, if b then 1 else 0])
  leadHam _ _ l lat os hs :=
    if 9 ∈ hs ∧ l.getLast? = some 2 then .err .runtimeError else .ok (l ++ [lat] ++ os ++ hs)
  value h := h.2
  leadValue h := h

/-- The same environment in which lead Hamiltonians can always be made. -/
@[reducible] def toyFit : Env :=
  { toy with leadHam := fun _ _ l lat os hs => .ok (l ++ [lat] ++ os ++ hs), leadValue := fun h => h }

/-- The starting parameters. -/
def toyParams : Params toy := ⟨0, [], [], ⟨1, 1, 1⟩, 0, 0, 0, [], [], [], []⟩

/-- The starting parameters of the second environment. -/
def toyFitParams : Params toyFit := ⟨0, [], [], ⟨1, 1, 1⟩, 0, 0, 0, [], [], [], []⟩

theorem toy_leads : LeadsFit toy := fun _ _ _ _ _ => ⟨_, rfl⟩

theorem toy_coherent : Coherent toy := by
  intro d S l os hs k b
  by_cases h : 7 ∈ os
  · left
    simp [toy, h]
  · right
    simp [toy, h, SameBy]

theorem toyFit_leads : LeadsFit toyFit := fun _ _ _ _ _ => ⟨_, rfl⟩

theorem toyFit_coherent : Coherent toyFit := by
  intro d S l os hs k b
  by_cases h : 7 ∈ os
  · left
    simp [toyFit, h]
  · right
    simp [toyFit, h, SameBy]

theorem toyFit_hams : LeadHamsFit toyFit := fun _ _ _ _ _ => ⟨_, _, rfl, rfl, rfl⟩

/-! ## C37 -/

/-- C37 (partial).  For any building steps, after any history of changes and reads (some of which may
have thrown), the next `system()` returns the system, or throws the exception, that a new model with
the same parameters would, and the next `hamiltonian()` the same matrix or exception; reading again
gives the same.  Not included: histories with `clear_*_modifiers` and with rejected changes other than
by `attach_lead`, for which the statement is false (below).  The scalar type of the Hamiltonian may
differ (`C37_scalar_type_witness`), which is why matrices are compared. -/
theorem C37_fresh_partial (hL : LeadsFit E) (hC : Coherent E) (p : Params E) (ops : List (Op E))
    (hc : Clean (fresh p) ops) :
    let s := run (fresh p) ops
    s.system.2 = (fresh s.p).system.2 ∧
      SameBy E.value s.hamiltonian.2 (fresh s.p).hamiltonian.2 := by
  intro s
  have hi : Inv s := inv_run hL hC ops _ (Inv.fresh p) hc
  refine ⟨?_, ?_⟩
  · rw [fresh_system]
    exact (system_spec hL s hi).1
  · rw [fresh_hamiltonian hL]
    exact (hamiltonian_spec hL hC s hi).1

/-- C37 (partial), the leads.  When lead Hamiltonians can be made, `leads()` after any such history
returns for every lead the structure and the matrices that a new model with the same parameters would,
and throws exactly when the new model would. -/
theorem C37_leads_partial (hL : LeadsFit E) (hC : Coherent E) (hH : LeadHamsFit E) (p : Params E)
    (ops : List (Op E)) (hc : Clean (fresh p) ops) :
    let s := run (fresh p) ops
    outcome s.leads.2 = outcome (fresh s.p).leads.2 ∧
      ∀ r r', s.leads.2 = .ok r → (fresh s.p).leads.2 = .ok r' →
        r.1 = r'.1 ∧ r.1.length = s.p.specs.length ∧
          r.2.map E.leadValue = r'.2.map E.leadValue := by
  intro s
  have hi : Inv s := inv_run hL hC ops _ (Inv.fresh p) hc
  have hl : InvL s := invL_run hL hC hH ops _ (Inv.fresh p) (InvL.fresh p) hc
  obtain ⟨-, h2, h3⟩ := leads_spec hL hC hH s hi hl
  obtain ⟨-, k2, k3⟩ := leads_spec hL hC hH (fresh s.p) (Inv.fresh _) (InvL.fresh _)
  refine ⟨h2.trans k2.symm, ?_⟩
  intro r r' hr hr'
  obtain ⟨⟨F, hF, hp⟩, hv⟩ := h3 r hr
  obtain ⟨⟨F', hF', hp'⟩, hv'⟩ := k3 r' hr'
  have hFF : F' = F := by
    have : fullFoundation s.p = .ok F' := hF'
    rw [hF] at this
    cases this
    rfl
  subst hFF
  have h1 : r.1 = r'.1 := by
    have : pushAll (E.lead F') s.p.specs [] = (r'.1, .ok ()) := hp'
    rw [hp] at this
    exact (Prod.mk.inj this).1
  refine ⟨h1, ?_, ?_⟩
  · have := pushAll_len (E.lead F') s.p.specs [] (by rw [hp])
    rw [hp] at this
    simpa using this
  · apply List.ext_getElem?
    intro i
    simp only [List.getElem?_map]
    rcases hx : r.1[i]? with _ | l
    · have e1 : r.2[i]? = none := by
        rw [List.getElem?_eq_none_iff] at hx ⊢
        rw [hv.1]
        exact hx
      have e2 : r'.2[i]? = none := by
        rw [List.getElem?_eq_none_iff] at hx ⊢
        rw [hv'.1, ← h1]
        exact hx
      rw [e1, e2]
    · have hlt : i < r.1.length := by
        rw [List.getElem?_eq_some_iff] at hx
        exact hx.1
      have hx' : r'.1[i]? = some l := h1 ▸ hx
      have e1 : r.2[i]? = some (r.2[i]'(hv.1 ▸ hlt)) := List.getElem?_eq_getElem _
      have e2 : r'.2[i]? = some (r'.2[i]'(by rw [hv'.1, ← h1]; exact hlt)) := List.getElem?_eq_getElem _
      obtain ⟨a, ha, hva⟩ := hv.2 i l _ hx e1
      obtain ⟨b, hb, hvb⟩ := hv'.2 i l _ hx' e2
      have hb' : E.leadHam true (isDouble s.p) l s.p.lattice s.p.onsite s.p.hopping = .ok b := hb
      rw [ha] at hb'
      cases hb'
      rw [e1, e2]
      simp only [Option.map_some]
      rw [hva, hvb]

/-- C37: reading never changes the parameters. -/
theorem C37_reads_pure (hL : LeadsFit E) (hC : Coherent E) (p : Params E) (ops : List (Op E))
    (hc : Clean (fresh p) ops) (op : Op E) (hr : op.isRead = true) :
    ((run (fresh p) ops).step op).1.p = (run (fresh p) ops).p := by
  have hi : Inv (run (fresh p) ops) := inv_run hL hC ops _ (Inv.fresh p) hc
  cases op <;> simp [Op.isRead] at hr
  · exact (system_spec hL _ hi).2.1
  · exact (hamiltonian_spec hL hC _ hi).2.1
  · exact (inv_leads hL hC _ hi).2
  · exact (inv_eval hL hC _ hi).2

/-- The second read returns what the first did and builds nothing. -/
theorem C37_read_twice (hL : LeadsFit E) (hC : Coherent E) (p : Params E) (ops : List (Op E))
    (hc : Clean (fresh p) ops) :
    let s := run (fresh p) ops
    ∀ h, s.hamiltonian.2 = .ok h →
      s.hamiltonian.1.hamiltonian = (s.hamiltonian.1, .ok h) ∧
      ∃ S, s.hamiltonian.1.system = (s.hamiltonian.1, .ok S) := by
  intro s h hh
  have hi : Inv s := inv_run hL hC ops _ (Inv.fresh p) hc
  obtain ⟨-, -, h3, h4, -⟩ := hamiltonian_spec hL hC s hi
  have hc := h4 h hh
  obtain ⟨S, h0, hS, -⟩ := h3.ham h hc
  have hs : s.hamiltonian.1.system = (s.hamiltonian.1, .ok S) := by
    simp only [MState.system, hS]
  refine ⟨?_, S, hs⟩
  rw [MState.hamiltonian, hs]
  simp only [hc]

/-- The history of the example: a modifier with complex values, a shape, a symmetry, leads, a change
of the wave vector and a rejected lead, with reads in between. -/
def toyOps : List (Op toyFit) :=
  [.addShape 2, .addOnsite 7, .leads, .setWave 3, .system, .attachLead 1 1, .attachLead 5 1,
    .hamiltonian, .addSGen 4, .addState 6, .eval, .addHop 8]

/-- The hypotheses of C37 are met. -/
example : Clean (fresh toyFitParams) toyOps := by
  refine ⟨Or.inr (Or.inr ⟨rfl, rfl⟩), Or.inr (Or.inr ⟨rfl, rfl⟩), Or.inl rfl,
    Or.inr (Or.inr ⟨rfl, rfl⟩), Or.inl rfl, Or.inr (Or.inl ⟨_, _, rfl⟩), Or.inr (Or.inl ⟨_, _, rfl⟩),
    Or.inl rfl, Or.inr (Or.inr ⟨rfl, rfl⟩), Or.inr (Or.inr ⟨rfl, rfl⟩), Or.inl rfl,
    Or.inr (Or.inr ⟨rfl, rfl⟩), trivial⟩

example : (run (fresh toyFitParams) toyOps).hamiltonian.2 =
    .ok (true, [4, 2, 2, 104, 1, 107, 4, 105, 6, 2, 7, 8, 3, 0]) := rfl

/-- C37 is false with `clear_structure_modifiers`: the system of the removed modifier is still
returned. -/
theorem C37_clear_structure_witness : ∃ (E : Env) (p : Params E) (ops : List (Op E)),
    LeadsFit E ∧ Coherent E ∧
      (∀ op ∈ ops, op.isRead = true ∨ op = .clearSMods ∨ ∃ m, op = .addState m) ∧
      (run (fresh p) ops).system.2 ≠ (fresh (run (fresh p) ops).p).system.2 :=
  ⟨toy, toyParams, [.addState 6, .system, .clearSMods], toy_leads, toy_coherent,
    by simp [Op.isRead], by decide⟩

/-- C37 is false with `clear_hamiltonian_modifiers`. -/
theorem C37_clear_hamiltonian_witness : ∃ (E : Env) (p : Params E) (ops : List (Op E)),
    LeadsFit E ∧ Coherent E ∧
      (∀ op ∈ ops, op.isRead = true ∨ op = .clearHMods ∨ ∃ m, op = .addOnsite m) ∧
      ¬ SameBy E.value (run (fresh p) ops).hamiltonian.2
        (fresh (run (fresh p) ops).p).hamiltonian.2 := by
  refine ⟨toy, toyParams, [.addOnsite 6, .hamiltonian, .clearHMods], toy_leads, toy_coherent,
    by simp [Op.isRead], ?_⟩
  have h1 : (run (fresh toyParams) [.addOnsite 6, .hamiltonian, .clearHMods]).hamiltonian.2
      = .ok (false, [0, 1, 1, 1, 0, 6, 0, 1]) := rfl
  have h2 : (fresh (run (fresh toyParams) [.addOnsite 6, .hamiltonian, .clearHMods]).p).hamiltonian.2
      = .ok (false, [0, 1, 1, 1, 0, 0, 1]) := rfl
  rw [h1, h2]
  simp [SameBy]

/-- C37 is false after a rejected shape: the shape is replaced, the old system is still returned. -/
theorem C37_rejected_shape_witness : ∃ (E : Env) (p : Params E) (ops : List (Op E)),
    LeadsFit E ∧ Coherent E ∧ (∀ op ∈ ops, op.isRead = true ∨ ∃ q, op = .addShape q) ∧
      (run (fresh p) ops).system.2 ≠ (fresh (run (fresh p) ops).p).system.2 :=
  ⟨toy, toyParams, [.addShape 2, .system, .addShape 4], toy_leads, toy_coherent,
    by simp [Op.isRead], by decide⟩

/-- The scalar type depends on the history: a model whose modifier once gave complex values stays
complex, while a new model with the same parameters is real. -/
theorem C37_scalar_type_witness : ∃ (E : Env) (p : Params E) (ops : List (Op E)),
    LeadsFit E ∧ Coherent E ∧
      (run (fresh p) ops).hamiltonian.1.isComplex ≠
        (fresh (run (fresh p) ops).p).hamiltonian.1.isComplex :=
  ⟨toy, toyParams, [.addOnsite 7, .hamiltonian, .clearHMods, .setWave 1], toy_leads, toy_coherent,
    by decide⟩

/-- Without `LeadHamsFit` the statement for leads is false: `leads()` throws because the Hamiltonian
of the second lead is not valid; called again it returns, and asking for the second lead is an index
error. -/
theorem C37_leads_after_failure_witness : ∃ (E : Env) (p : Params E) (ops : List (Op E)),
    LeadsFit E ∧ Coherent E ∧ Clean (fresh p) ops ∧ (run (fresh p) ops).p.specs.length = 2 ∧
      (run (fresh p) ops).leads.2 = .err .runtimeError ∧
      ∃ r, (run (fresh p) ops).leads.1.leads.2 = .ok r ∧
        leadAt (run (fresh p) ops).p.specs r 1 = .err .outOfRange :=
  ⟨toy, toyParams, [.attachLead 1 1, .attachLead 2 1, .addHop 9], toy_leads, toy_coherent,
    ⟨Or.inr (Or.inl ⟨_, _, rfl⟩), Or.inr (Or.inl ⟨_, _, rfl⟩), Or.inr (Or.inr ⟨rfl, rfl⟩), trivial⟩,
    rfl, rfl, _, rfl, rfl⟩

/-! ## C38 -/

/-- C38 (partial), models: of the calls that change a model, only `add(Primitive)`, `add(Shape)`,
`add(SiteGenerator)` and `add(HoppingGenerator)` leave a trace when they throw; after any other
rejected call the model is exactly as before.  For those four the claim is false (below). -/
theorem C38_model_partial (s : MState E) (op : Op E) (hr : op.isRead = false)
    (h1 : ∀ q, op ≠ .addPrimitive q) (h2 : ∀ q, op ≠ .addShape q) (h3 : ∀ q, op ≠ .addSGen q)
    (h4 : ∀ q, op ≠ .addHGen q) (ht : (s.step op).2 ≠ .ok ()) : (s.step op).1 = s := by
  cases op with
  | addPrimitive q => exact absurd rfl (h1 q)
  | addShape q => exact absurd rfl (h2 q)
  | addSGen q => exact absurd rfl (h3 q)
  | addHGen q => exact absurd rfl (h4 q)
  | attachLead d q =>
    simp only [MState.step, MState.attachLead] at ht ⊢
    by_cases h1 : d = 0
    · simp [h1]
    · by_cases h2 : E.ndim s.p.lattice = 1
      · simp [h1, h2]
      · by_cases h3 : d.natAbs > E.ndim s.p.lattice
        · simp [h1, h2, h3]
        · simp only [h1, h2, h3, if_false] at ht
          exact absurd rfl ht
  | setWave k =>
    simp only [MState.step, MState.setWave] at ht
    by_cases h : @decide (s.p.wave = k) (E.waveEq _ _) = true
    · rw [if_pos h] at ht
      exact absurd rfl ht
    · rw [if_neg h] at ht
      exact absurd rfl ht
  | addSymmetry q => exact absurd rfl ht
  | addState m => exact absurd rfl ht
  | addPos m => exact absurd rfl ht
  | addOnsite m => exact absurd rfl ht
  | addHop m => exact absurd rfl ht
  | clearSMods => exact absurd rfl ht
  | clearHMods => exact absurd rfl ht
  | system => simp [Op.isRead] at hr
  | hamiltonian => simp [Op.isRead] at hr
  | leads => simp [Op.isRead] at hr
  | eval => simp [Op.isRead] at hr

/-- The hypotheses of `C38_model_partial` are met by a rejected lead. -/
example : ((fresh toyParams).step (.attachLead 3 1)).2 = .err .logicError ∧
    ((fresh toyParams).step (.attachLead 2 1)).2 = .ok () := ⟨rfl, rfl⟩

/-- C38: a rejected primitive or shape is undone by the next call of the same kind. -/
theorem C38_retry (s : MState E) :
    (∀ q q', (s.addPrimitive q).2 ≠ .ok () →
      (s.addPrimitive q).1.addPrimitive q' = s.addPrimitive q') ∧
    (∀ q q', (s.addShape q).2 ≠ .ok () → (s.addShape q).1.addShape q' = s.addShape q') := by
  constructor
  · intro q q' hq
    unfold MState.addPrimitive at hq ⊢
    by_cases h : tooManyDims (E.ndim s.p.lattice) q = true
    · simp only [h, if_true] at hq ⊢
    · simp only [if_neg h] at hq
      exact absurd rfl hq
  · intro q q' hq
    unfold MState.addShape at hq ⊢
    rcases h : E.setOffset s.p.lattice q with l | e | _
    · simp only [h] at hq
      exact absurd rfl hq
    · simp only
    · simp only

/-- The results after a rejected call followed by further accepted calls differ from the results
without the rejected call. -/
def LeavesTrace (E : Env) (p : Params E) (bad : Op E) (rest : List (Op E)) : Prop :=
  ((fresh p).step bad).2 = .err .logicError ∧
    Clean ((fresh p).step bad).1 rest ∧ Clean (fresh p) rest ∧
    (run ((fresh p).step bad).1 rest).system.2 ≠ (run (fresh p) rest).system.2

/-- C38 is false for `add(Primitive)`: after the exception the rejected size is used. -/
theorem C38_primitive_witness : ∃ (E : Env) (p : Params E) (q : Prim),
    LeavesTrace E p (.addPrimitive q) [] :=
  ⟨toy, toyParams, ⟨1, 1, 2⟩, rfl, trivial, trivial, by decide⟩

/-- C38 is false for `add(Shape)`: after the exception the rejected shape is used. -/
theorem C38_shape_witness : ∃ (E : Env) (p : Params E) (q : E.Shp),
    LeavesTrace E p (.addShape q) [] :=
  ⟨toy, toyParams, (6 : Nat), rfl, trivial, trivial, by decide⟩

/-- C38 is false for `add(SiteGenerator)`: a generator rejected because its name is taken runs in
every later build. -/
theorem C38_site_generator_witness : ∃ (E : Env) (p : Params E) (g : E.SGen) (rest : List (Op E)),
    LeavesTrace E p (.addSGen g) rest :=
  ⟨toy, { toyParams with sreg := [4] }, (4 : Nat), [.addState (1 : Nat)], rfl,
    ⟨Or.inr (Or.inr ⟨rfl, rfl⟩), trivial⟩, ⟨Or.inr (Or.inr ⟨rfl, rfl⟩), trivial⟩, by decide⟩

/-- C38 is false for `add(HoppingGenerator)`. -/
theorem C38_hopping_generator_witness : ∃ (E : Env) (p : Params E) (g : E.HGen) (rest : List (Op E)),
    LeavesTrace E p (.addHGen g) rest :=
  ⟨toy, { toyParams with hreg := [4] }, (4 : Nat), [.addState (1 : Nat)], rfl,
    ⟨Or.inr (Or.inr ⟨rfl, rfl⟩), trivial⟩, ⟨Or.inr (Or.inr ⟨rfl, rfl⟩), trivial⟩, by decide⟩

/-! ### Lattices -/

section Lattice

open Verif.Lattice

variable {K P : Type} [DecidableEq K] [Zero K] [Star K]

/-- C38 (partial), lattices: a building call that throws leaves the lattice exactly as before, except
that `add_hopping` with an energy may leave behind one hopping family without terms. -/
theorem C38_lattice_partial (l : Lattice.Lattice K P) (op : Lattice.Lattice.Op K P)
    (ht : (l.step op).2 ≠ .ok ()) :
    (l.step op).1 = l ∨
      ∃ rel src dst energy, op = .addHoppingEnergy rel src dst energy ∧
        (l.step op).1 = { l with hops := l.hops ++ [(l.anonymousName, ⟨energy, l.hops.length, []⟩)] } := by
  have hadd : ∀ (l : Lattice.Lattice K P) rel src dst family,
      (l.addHopping rel src dst family).2 ≠ .ok () → (l.addHopping rel src dst family).1 = l := by
    intro l rel src dst family h
    unfold Lattice.Lattice.addHopping at h ⊢
    split_ifs at h ⊢ with h1
    · rfl
    · rcases ha : lookup l.subs src with _ | a
      · rfl
      rcases hb : lookup l.subs dst with _ | b
      · rfl
      rcases hf : lookup l.hops family with _ | f
      · rfl
      simp only [ha, hb, hf] at h ⊢
      split_ifs at h ⊢ with h2 h3
      · rfl
      · rfl
      · exact absurd rfl h
  have hreg : ∀ (name : String) (e : Mat K),
      ((l.registerHoppingEnergy name e).1 = l ∧ (l.registerHoppingEnergy name e).2 ≠ .ok ()) ∨
        l.registerHoppingEnergy name e =
          ({ l with hops := l.hops ++ [(name, ⟨e, l.hops.length, []⟩)] }, .ok ()) := by
    intro name e
    unfold Lattice.Lattice.registerHoppingEnergy
    by_cases h1 : name = ""
    · left
      simp [h1]
    · rcases hc : checkHopping e with u | e' | _
      · by_cases h2 : (lookup l.hops name).isSome = true
        · left
          simp [h1, h2]
        · right
          simp [h1, h2]
      · left
        simp [h1]
      · left
        simp [h1]
  cases op with
  | addSublattice n p e =>
    left
    simp only [Lattice.Lattice.step, Lattice.Lattice.addSublattice] at ht ⊢
    rcases hc : checkOnsite e with u | e' | _
    · simp only [hc] at ht ⊢
      rcases hi : l.makeUniqueSublatticeId n with id | e' | _
      · simp only [hi] at ht
        exact absurd rfl ht
      · rfl
      · rfl
    · rfl
    · rfl
  | addAlias a o p =>
    left
    simp only [Lattice.Lattice.step, Lattice.Lattice.addAlias] at ht ⊢
    rcases hc : lookup l.subs o with _ | s
    · rfl
    · simp only [hc] at ht ⊢
      rcases hi : l.makeUniqueSublatticeId a with id | e' | _
      · simp only [hi] at ht
        exact absurd rfl ht
      · rfl
      · rfl
  | registerHoppingEnergy n e =>
    left
    rcases hreg n e with h | h
    · exact h.1
    · simp only [Lattice.Lattice.step, h] at ht
      exact absurd rfl ht
  | addHopping r s d f =>
    left
    exact hadd l r s d f ht
  | addHoppingEnergy r s d e =>
    simp only [Lattice.Lattice.step, Lattice.Lattice.addHoppingEnergy] at ht ⊢
    rcases hf : l.hops.find? (fun p => decide (p.2.energy = e)) with _ | p
    · simp only [hf] at ht ⊢
      rcases hreg l.anonymousName e with h | h
      · left
        rcases hr : l.registerHoppingEnergy l.anonymousName e with ⟨l', u | e' | _⟩
        · rw [hr] at h
          exact absurd rfl h.2
        · rw [hr] at h
          exact h.1
        · rw [hr] at h
          exact h.1
      · right
        simp only [h] at ht ⊢
        exact ⟨r, s, d, e, rfl, hadd _ _ _ _ _ ht⟩
    · simp only [hf] at ht ⊢
      left
      exact hadd _ _ _ _ _ ht

/-- C38: the family left behind has no effect on the terms of the lattice, its sublattices, its unit
cell or the number of hoppings per site. -/
theorem C38_lattice_same_structure (l : Lattice.Lattice K P) (op : Lattice.Lattice.Op K P)
    (ht : (l.step op).2 ≠ .ok ()) :
    (l.step op).1.subs = l.subs ∧ terms (l.step op).1 = terms l ∧
      optimizedUnitCell (l.step op).1.subs (l.step op).1.hops = optimizedUnitCell l.subs l.hops ∧
      (l.step op).1.maxHoppings = l.maxHoppings := by
  have key : ∀ x : String × HoppingFamily K, x.2.terms = [] →
      Lattice.Lattice.allTerms (l.hops ++ [x]) = Lattice.Lattice.allTerms l.hops := by
    intro x hx
    simp [Lattice.Lattice.allTerms, hx]
  rcases C38_lattice_partial l op ht with h | ⟨rel, src, dst, energy, -, h⟩
  · rw [h]
    exact ⟨rfl, rfl, rfl, rfl⟩
  · rw [h]
    refine ⟨rfl, by simp [terms], ?_, ?_⟩
    · unfold optimizedUnitCell
      simp only [key (l.anonymousName, ⟨energy, l.hops.length, []⟩) rfl]
    · unfold Lattice.Lattice.maxHoppings Lattice.Lattice.scalarHoppings
      simp only [key (l.anonymousName, ⟨energy, l.hops.length, []⟩) rfl]

/-- C38 is false for `add_hopping` with an energy: the family registered by the rejected call makes a
later `register_hopping_energy` with that name throw, and shifts the ids of later families. -/
theorem C38_anonymous_witness : ∃ (l : Lattice.Lattice Rat Unit) (op next : Lattice.Lattice.Op Rat Unit),
    (l.step op).2 = .err .outOfRange ∧ (l.step next).2 = .ok () ∧
      ((l.step op).1.step next).2 = .ok () ∧
      (lookup ((l.step op).1.step next).1.hops "t").map (·.familyId) ≠
        (lookup (l.step next).1.hops "t").map (·.familyId) := by
  refine ⟨Lattice.Lattice.empty, .addHoppingEnergy ⟨1, 0, 0⟩ "A" "B" ⟨1, 1, fun _ _ => 1⟩,
    .registerHoppingEnergy "t" ⟨1, 1, fun _ _ => 2⟩, ?_⟩
  decide

end Lattice

end Verif.Model
