import Verif.Model.Props

/-!
# The parameters of a model are the calls that were made

`C37` compares a model with a new one that has the same parameters.  Here the parameters are expressed by the calls
alone.
-/

namespace Verif.Model

variable {E : Env}

/-! ## Specification -/

/-- What follows the last element that satisfies `p`. -/
def sinceLast {α : Type} (p : α → Bool) (l : List α) : List α := (l.reverse.takeWhile fun x => !p x).reverse

/-- `clear_hamiltonian_modifiers`. -/
def Op.isClearH : Op E → Bool
  | .clearHMods => true
  | _ => false

/-- `clear_structure_modifiers`. -/
def Op.isClearS : Op E → Bool
  | .clearSMods => true
  | _ => false

/-- The onsite modifier added by a call. -/
def Op.onsite? : Op E → Option E.Onsite
  | .addOnsite m => some m
  | _ => none

/-- The hopping modifier added by a call. -/
def Op.hopping? : Op E → Option E.Hop
  | .addHop m => some m
  | _ => none

/-- The site state modifier, position modifier or generator added by a call. -/
def Op.smod? : Op E → Option (SMod E)
  | .addState m => some (.state m)
  | .addPos m => some (.pos m)
  | .addSGen g => some (.sgen g)
  | .addHGen g => some (.hgen g)
  | _ => none

/-- The wave vector set by a call. -/
def Op.wave? : Op E → Option E.Wave
  | .setWave k => some k
  | _ => none

/-- The symmetry set by a call. -/
def Op.symmetry? : Op E → Option E.Sym
  | .addSymmetry q => some q
  | _ => none

/-- The primitive set by a call. -/
def Op.primitive? : Op E → Option Prim
  | .addPrimitive q => some q
  | _ => none

/-- The shape set by a call. -/
def Op.shape? : Op E → Option E.Shp
  | .addShape q => some q
  | _ => none

/-- The site generator added by a call. -/
def Op.sgen? : Op E → Option E.SGen
  | .addSGen g => some g
  | _ => none

/-- The hopping generator added by a call. -/
def Op.hgen? : Op E → Option E.HGen
  | .addHGen g => some g
  | _ => none

/-- The leads of the calls that are accepted for a lattice with `ndim` directions. -/
def Op.lead? (ndim : Nat) : Op E → Option (Int × E.Shp)
  | .attachLead d q => if d ≠ 0 ∧ ndim ≠ 1 ∧ d.natAbs ≤ ndim then some (d, q) else none
  | _ => none

/-- A step whose failure has no effect. -/
def orKeep {α β : Type} (f : β → α → Res β) (b : β) (a : α) : β :=
  match f b a with
  | .ok b' => b'
  | _ => b

/-- The last of the given values, or the one from the beginning. -/
def lastOr {α : Type} (l : List α) (d : α) : α := l.getLast?.getD d

/-! ## Reading does not change the parameters -/

theorem makeSystem_p (s : MState E) : s.makeSystem.1.p = s.p := by
  unfold MState.makeSystem
  rcases fullFoundation s.p with F | e | _
  · simp only
    rcases (makeStructure s.structs F s.p.specs).2 with u | e | _ <;> rfl
  · rfl
  · rfl

theorem system_p (s : MState E) : s.system.1.p = s.p := by
  unfold MState.system
  rcases s.sys with _ | S
  · simp only
    have := makeSystem_p s
    rcases h : s.makeSystem with ⟨s', S | e | _⟩ <;> rw [h] at this <;> exact this
  · rfl

theorem makeHamiltonian_p (s : MState E) (S : E.Sys) : (s.makeHamiltonian S).1.p = s.p := by
  unfold MState.makeHamiltonian
  split
  · rfl
  · split <;> rfl

theorem hamiltonian_p (s : MState E) : s.hamiltonian.1.p = s.p := by
  unfold MState.hamiltonian
  have hs := system_p s
  rcases h : s.system with ⟨s', S | e | _⟩ <;> rw [h] at hs <;> simp only at hs ⊢
  · rcases s'.ham with _ | x
    · simp only
      have hm := makeHamiltonian_p s' S
      rcases h' : s'.makeHamiltonian S with ⟨s2, x | e | _⟩ <;> rw [h'] at hm <;> simp only at hm ⊢ <;> exact hm.trans hs
    · exact hs
  · exact hs
  · exact hs

theorem leads_p (s : MState E) : s.leads.1.p = s.p := by
  unfold MState.leads
  have hs := system_p s
  rcases h : s.system with ⟨s', S | e | _⟩ <;> rw [h] at hs <;> simp only at hs ⊢
  · have hm := hamiltonian_p s'
    rcases h' : s'.hamiltonian with ⟨s2, x | e | _⟩ <;> rw [h'] at hm <;> simp only at hm ⊢
    · rcases (makeLeadHams s2.lhams s2.structs s2.p (isDouble s2.p) s2.isComplex).2 with u | e | _ <;> exact hm.trans hs
    · exact hm.trans hs
    · exact hm.trans hs
  · exact hs
  · exact hs

theorem eval_p (s : MState E) : s.eval.1.p = s.p := by
  unfold MState.eval
  have hs := system_p s
  rcases h : s.system with ⟨s', S | e | _⟩ <;> rw [h] at hs <;> simp only at hs ⊢
  · have hm := hamiltonian_p s'
    rcases h' : s'.hamiltonian with ⟨s2, x | e | _⟩ <;> rw [h'] at hm <;> simp only at hm ⊢
    · have hl := leads_p s2
      rcases h2 : s2.leads with ⟨s3, x | e | _⟩ <;> rw [h2] at hl <;> simp only at hl ⊢ <;> exact hl.trans (hm.trans hs)
    · exact hm.trans hs
    · exact hm.trans hs
  · exact hs
  · exact hs

/-! ## One call -/

theorem run_snoc (s : MState E) (ops : List (Op E)) (op : Op E) : run s (ops ++ [op]) = ((run s ops).step op).1 := by
  induction ops generalizing s with
  | nil => rfl
  | cons o ops ih => exact ih _

/-- The parameters after one call. -/
def nextParams (p : Params E) (op : Op E) : Params E :=
  { lattice := match op.shape? with | some q => orKeep E.setOffset p.lattice q | none => p.lattice
    sreg := match op.sgen? with | some g => orKeep E.registerSite p.sreg g | none => p.sreg
    hreg := match op.hgen? with | some g => orKeep E.registerHop p.hreg g | none => p.hreg
    primitive := op.primitive?.getD p.primitive
    shape := op.shape?.getD p.shape
    symmetry := op.symmetry?.getD p.symmetry
    wave := op.wave?.getD p.wave
    smods := if op.isClearS then [] else p.smods ++ op.smod?.toList
    onsite := if op.isClearH then [] else p.onsite ++ op.onsite?.toList
    hopping := if op.isClearH then [] else p.hopping ++ op.hopping?.toList
    specs := p.specs ++ (op.lead? (E.ndim p.lattice)).toList }

theorem step_params (s : MState E) (op : Op E) : (s.step op).1.p = nextParams s.p op := by
  cases op with
  | addPrimitive q =>
    simp only [MState.step, MState.addPrimitive, MState.clearStructure, MState.clearHamiltonian, nextParams]
    split <;> simp [Op.shape?, Op.sgen?, Op.hgen?, Op.primitive?, Op.symmetry?, Op.wave?, Op.smod?, Op.onsite?, Op.hopping?, Op.lead?, Op.isClearS, Op.isClearH]
  | addShape q =>
    simp only [MState.step, MState.addShape, MState.clearStructure, MState.clearHamiltonian, nextParams, orKeep]
    rcases hq : E.setOffset s.p.lattice q with l | e | _ <;>
      simp [hq, Op.shape?, Op.sgen?, Op.hgen?, Op.primitive?, Op.symmetry?, Op.wave?, Op.smod?, Op.onsite?, Op.hopping?, Op.lead?, Op.isClearS, Op.isClearH]
  | addSymmetry q =>
    simp [MState.step, MState.addSymmetry, MState.clearStructure, MState.clearHamiltonian, nextParams, Op.shape?, Op.sgen?, Op.hgen?, Op.primitive?, Op.symmetry?, Op.wave?, Op.smod?, Op.onsite?, Op.hopping?, Op.lead?, Op.isClearS, Op.isClearH]
  | attachLead d q =>
    simp only [MState.step, MState.attachLead, MState.clearStructure, MState.clearHamiltonian, nextParams]
    by_cases h0 : d = 0
    · simp [h0, Op.shape?, Op.sgen?, Op.hgen?, Op.primitive?, Op.symmetry?, Op.wave?, Op.smod?, Op.onsite?, Op.hopping?, Op.lead?, Op.isClearS, Op.isClearH]
    · by_cases h1 : E.ndim s.p.lattice = 1
      · simp [h0, h1, Op.shape?, Op.sgen?, Op.hgen?, Op.primitive?, Op.symmetry?, Op.wave?, Op.smod?, Op.onsite?, Op.hopping?, Op.lead?, Op.isClearS, Op.isClearH]
      · by_cases h2 : d.natAbs > E.ndim s.p.lattice
        · have h2' : ¬ d.natAbs ≤ E.ndim s.p.lattice := by omega
          simp [h0, h1, h2, h2', Op.shape?, Op.sgen?, Op.hgen?, Op.primitive?, Op.symmetry?, Op.wave?, Op.smod?, Op.onsite?, Op.hopping?, Op.lead?, Op.isClearS, Op.isClearH]
        · have h2' : d.natAbs ≤ E.ndim s.p.lattice := by omega
          have h2'' : ¬ E.ndim s.p.lattice < d.natAbs := by omega
          simp [h0, h1, h2', h2'', Op.shape?, Op.sgen?, Op.hgen?, Op.primitive?, Op.symmetry?, Op.wave?, Op.smod?, Op.onsite?, Op.hopping?, Op.lead?, Op.isClearS, Op.isClearH]
  | addState m =>
    simp [MState.step, MState.addState, MState.clearStructure, MState.clearHamiltonian, nextParams, Op.shape?, Op.sgen?, Op.hgen?, Op.primitive?, Op.symmetry?, Op.wave?, Op.smod?, Op.onsite?, Op.hopping?, Op.lead?, Op.isClearS, Op.isClearH]
  | addPos m =>
    simp [MState.step, MState.addPos, MState.clearStructure, MState.clearHamiltonian, nextParams, Op.shape?, Op.sgen?, Op.hgen?, Op.primitive?, Op.symmetry?, Op.wave?, Op.smod?, Op.onsite?, Op.hopping?, Op.lead?, Op.isClearS, Op.isClearH]
  | addOnsite m =>
    simp [MState.step, MState.addOnsite, MState.clearHamiltonian, nextParams, Op.shape?, Op.sgen?, Op.hgen?, Op.primitive?, Op.symmetry?, Op.wave?, Op.smod?, Op.onsite?, Op.hopping?, Op.lead?, Op.isClearS, Op.isClearH]
  | addHop m =>
    simp [MState.step, MState.addHop, MState.clearHamiltonian, nextParams, Op.shape?, Op.sgen?, Op.hgen?, Op.primitive?, Op.symmetry?, Op.wave?, Op.smod?, Op.onsite?, Op.hopping?, Op.lead?, Op.isClearS, Op.isClearH]
  | addSGen g =>
    simp only [MState.step, MState.addSGen, MState.clearStructure, MState.clearHamiltonian, nextParams, orKeep]
    rcases hq : E.registerSite s.p.sreg g with l | e | _ <;>
      simp [hq, Op.shape?, Op.sgen?, Op.hgen?, Op.primitive?, Op.symmetry?, Op.wave?, Op.smod?, Op.onsite?, Op.hopping?, Op.lead?, Op.isClearS, Op.isClearH]
  | addHGen g =>
    simp only [MState.step, MState.addHGen, MState.clearStructure, MState.clearHamiltonian, nextParams, orKeep]
    rcases hq : E.registerHop s.p.hreg g with l | e | _ <;>
      simp [hq, Op.shape?, Op.sgen?, Op.hgen?, Op.primitive?, Op.symmetry?, Op.wave?, Op.smod?, Op.onsite?, Op.hopping?, Op.lead?, Op.isClearS, Op.isClearH]
  | setWave k =>
    simp only [MState.step, MState.setWave, MState.clearHamiltonian, nextParams]
    by_cases h : s.p.wave = k
    · subst h
      simp [Op.shape?, Op.sgen?, Op.hgen?, Op.primitive?, Op.symmetry?, Op.wave?, Op.smod?, Op.onsite?, Op.hopping?, Op.lead?, Op.isClearS, Op.isClearH]
    · simp [h, Op.shape?, Op.sgen?, Op.hgen?, Op.primitive?, Op.symmetry?, Op.wave?, Op.smod?, Op.onsite?, Op.hopping?, Op.lead?, Op.isClearS, Op.isClearH]
  | clearSMods =>
    simp [MState.step, MState.clearSMods, nextParams, Op.shape?, Op.sgen?, Op.hgen?, Op.primitive?, Op.symmetry?, Op.wave?, Op.smod?, Op.onsite?, Op.hopping?, Op.lead?, Op.isClearS, Op.isClearH]
  | clearHMods =>
    simp [MState.step, MState.clearHMods, nextParams, Op.shape?, Op.sgen?, Op.hgen?, Op.primitive?, Op.symmetry?, Op.wave?, Op.smod?, Op.onsite?, Op.hopping?, Op.lead?, Op.isClearS, Op.isClearH]
  | system =>
    simp only [MState.step]; rw [system_p]
    simp [nextParams, Op.shape?, Op.sgen?, Op.hgen?, Op.primitive?, Op.symmetry?, Op.wave?, Op.smod?, Op.onsite?, Op.hopping?, Op.lead?, Op.isClearS, Op.isClearH]
  | hamiltonian =>
    simp only [MState.step]; rw [hamiltonian_p]
    simp [nextParams, Op.shape?, Op.sgen?, Op.hgen?, Op.primitive?, Op.symmetry?, Op.wave?, Op.smod?, Op.onsite?, Op.hopping?, Op.lead?, Op.isClearS, Op.isClearH]
  | leads =>
    simp only [MState.step]; rw [leads_p]
    simp [nextParams, Op.shape?, Op.sgen?, Op.hgen?, Op.primitive?, Op.symmetry?, Op.wave?, Op.smod?, Op.onsite?, Op.hopping?, Op.lead?, Op.isClearS, Op.isClearH]
  | eval =>
    simp only [MState.step]; rw [eval_p]
    simp [nextParams, Op.shape?, Op.sgen?, Op.hgen?, Op.primitive?, Op.symmetry?, Op.wave?, Op.smod?, Op.onsite?, Op.hopping?, Op.lead?, Op.isClearS, Op.isClearH]

/-! ## Histories -/

theorem lastOr_snoc {α β : Type} (f : α → Option β) (l : List α) (x : α) (d : β) :
    lastOr ((l ++ [x]).filterMap f) d = (f x).getD (lastOr (l.filterMap f) d) := by
  rw [List.filterMap_append]
  unfold lastOr
  cases h : f x with
  | none => simp [h]
  | some y => simp [h]

theorem sinceLast_snoc {α : Type} (p : α → Bool) (l : List α) (x : α) :
    sinceLast p (l ++ [x]) = if p x then [] else sinceLast p l ++ [x] := by
  unfold sinceLast
  rw [List.reverse_append]
  cases h : p x <;> simp [h]

/-- **C65.** The parameters of a model are the calls that were made, whatever was read in between and whichever calls
threw: the wave vector, the symmetry, the primitive size and the shape are the last ones given; the modifiers are all
those given since they were cleared, in that order; the leads are those of the accepted calls in that order; offsets
and families are the accepted ones. -/
theorem C65_parameters (hdim : ∀ l q l', E.setOffset l q = .ok l' → E.ndim l' = E.ndim l) (p : Params E) (ops : List (Op E)) :
    let q := (run (fresh p) ops).p
    q.wave = lastOr (ops.filterMap Op.wave?) p.wave ∧
    q.symmetry = lastOr (ops.filterMap Op.symmetry?) p.symmetry ∧
    q.primitive = lastOr (ops.filterMap Op.primitive?) p.primitive ∧
    q.shape = lastOr (ops.filterMap Op.shape?) p.shape ∧
    q.onsite = (if ops.any Op.isClearH then [] else p.onsite) ++ (sinceLast Op.isClearH ops).filterMap Op.onsite? ∧
    q.hopping = (if ops.any Op.isClearH then [] else p.hopping) ++ (sinceLast Op.isClearH ops).filterMap Op.hopping? ∧
    q.smods = (if ops.any Op.isClearS then [] else p.smods) ++ (sinceLast Op.isClearS ops).filterMap Op.smod? ∧
    q.specs = p.specs ++ ops.filterMap (Op.lead? (E.ndim p.lattice)) ∧
    q.lattice = (ops.filterMap Op.shape?).foldl (orKeep E.setOffset) p.lattice ∧ E.ndim q.lattice = E.ndim p.lattice ∧
    q.sreg = (ops.filterMap Op.sgen?).foldl (orKeep E.registerSite) p.sreg ∧
    q.hreg = (ops.filterMap Op.hgen?).foldl (orKeep E.registerHop) p.hreg := by
  intro q
  induction ops using List.reverseRecOn with
  | nil => simp [q, run, fresh, lastOr, sinceLast]
  | append_singleton ops op ih =>
    obtain ⟨h1, h2, h3, h4, h5, h6, h7, h8, h9, h10, h11, h12⟩ := ih
    have hq : q = nextParams (run (fresh p) ops).p op := by
      show (run (fresh p) (ops ++ [op])).p = _
      rw [run_snoc, step_params]
    rw [hq]
    simp only [nextParams]
    have hlist : ∀ {β : Type} (g : Op E → Option β), (ops ++ [op]).filterMap g = ops.filterMap g ++ (g op).toList := by
      intro β g
      rw [List.filterMap_append]
      cases h : g op <;> simp [h]
    refine ⟨?_, ?_, ?_, ?_, ?_, ?_, ?_, ?_, ?_, ?_, ?_, ?_⟩
    · rw [lastOr_snoc, h1]
    · rw [lastOr_snoc, h2]
    · rw [lastOr_snoc, h3]
    · rw [lastOr_snoc, h4]
    · rw [sinceLast_snoc, h5, List.any_append]
      cases h : op.isClearH
      · cases hg : op.onsite? <;> simp [h, hg]
      · simp [h]
    · rw [sinceLast_snoc, h6, List.any_append]
      cases h : op.isClearH
      · cases hg : op.hopping? <;> simp [h, hg]
      · simp [h]
    · rw [sinceLast_snoc, h7, List.any_append]
      cases h : op.isClearS
      · cases hg : op.smod? <;> simp [h, hg]
      · simp [h]
    · rw [h8, h10, hlist, List.append_assoc]
    · rw [hlist, List.foldl_append, ← h9]
      cases op.shape? <;> rfl
    · rw [← h10]
      cases op.shape? with
      | none => rfl
      | some z =>
        show E.ndim (orKeep E.setOffset (run (fresh p) ops).p.lattice z) = _
        unfold orKeep
        rcases hz : E.setOffset (run (fresh p) ops).p.lattice z with l | e | _
        · exact hdim _ _ _ hz
        · rfl
        · rfl
    · rw [hlist, List.foldl_append, ← h11]
      cases op.sgen? <;> rfl
    · rw [hlist, List.foldl_append, ← h12]
      cases op.hgen? <;> rfl

/-! ## Leads -/

theorem pushAll_get {α β : Type} (f : α → Res β) (xs : List α) (acc ys : List β) (h : pushAll f xs acc = (ys, .ok ())) (i : Nat) (x : α)
    (hx : xs[i]? = some x) : ∃ y, ys[acc.length + i]? = some y ∧ f x = .ok y := by
  induction xs generalizing acc i with
  | nil => simp at hx
  | cons z xs ih =>
    rcases hz : f z with y | e | _
    · simp only [pushAll, hz] at h
      cases i with
      | zero =>
        simp only [List.getElem?_cons_zero, Option.some.injEq] at hx
        subst hx
        refine ⟨y, ?_, hz⟩
        have hpre : ∀ (l : List α) (acc : List β), pushAll f l acc = (ys, .ok ()) → acc <+: ys := by
          intro l
          induction l with
          | nil => intro acc h; simp only [pushAll, Prod.mk.injEq] at h; rw [h.1]
          | cons w l ih' =>
            intro acc h
            rcases hw : f w with v | e | _
            · simp only [pushAll, hw] at h
              exact (List.prefix_append _ _).trans (ih' _ h)
            · simp [pushAll, hw] at h
            · simp [pushAll, hw] at h
        have := hpre _ _ h
        obtain ⟨t, ht⟩ := this
        rw [← ht]
        simp
      | succ i =>
        rw [List.getElem?_cons_succ] at hx
        obtain ⟨y', h1, h2⟩ := ih _ h i hx
        refine ⟨y', ?_, h2⟩
        rw [← h1]
        congr 1
        simp
        omega
    · simp [pushAll, hz] at h
    · simp [pushAll, hz] at h

/-- **C65.** `leads[i]` is the lead of the i-th accepted call of `attach_lead`: its specification is the one given, its
structure is the one made for it from the current foundation, and its Hamiltonian is the one made of that structure
with the current modifiers.  There is nothing else in `leads`. -/
theorem C65_lead_at (hL : LeadsFit E) (hC : Coherent E) (hH : LeadHamsFit E) (p : Params E) (ops : List (Op E))
    (hc : Clean (fresh p) ops) {r : List E.Lead × List E.LHam} (hr : (run (fresh p) ops).leads.2 = .ok r) :
    let q := (run (fresh p) ops).p
    (∀ i, q.specs.length ≤ i → leadAt q.specs r i = .err .outOfRange) ∧
    ∃ F, fullFoundation q = .ok F ∧ ∀ i sp, q.specs[i]? = some sp → ∃ l h h0, leadAt q.specs r i = .ok (sp, l, h) ∧
      E.lead F sp = .ok l ∧ E.leadHam true (isDouble q) l q.lattice q.onsite q.hopping = .ok h0 ∧ E.leadValue h = E.leadValue h0 := by
  intro q
  have hi : Inv (run (fresh p) ops) := inv_run hL hC ops _ (Inv.fresh p) hc
  have hl : InvL (run (fresh p) ops) := invL_run hL hC hH ops _ (Inv.fresh p) (InvL.fresh p) hc
  obtain ⟨⟨F, hF, hp⟩, hv1, hv2⟩ := (leads_spec hL hC hH _ hi hl).2.2 r hr
  constructor
  · intro i hlen
    unfold leadAt
    rw [List.getElem?_eq_none_iff.2 hlen]
  · refine ⟨F, hF, fun i sp hsp => ?_⟩
    obtain ⟨l, h1, h2⟩ := pushAll_get _ _ _ _ hp i sp hsp
    rw [List.length_nil, Nat.zero_add] at h1
    have hlt : i < r.2.length := by
      rw [hv1]
      exact (List.getElem?_eq_some_iff.1 h1).1
    have h3 : r.2[i]? = some r.2[i] := List.getElem?_eq_getElem hlt
    obtain ⟨h0, h4, h5⟩ := hv2 i l _ h1 h3
    refine ⟨l, r.2[i], h0, ?_, h2, h4, h5⟩
    unfold leadAt
    rw [hsp, h1, h3]

/-! ## The scalar type -/

/-- Specification: there is a reason for a complex Hamiltonian. -/
def ComplexReason (p : Params E) : Prop :=
  E.siteComplex p.sreg = true ∨ E.hopComplex p.hreg = true ∨ (∃ m ∈ p.onsite, E.onsiteComplex m = true) ∨
    (∃ m ∈ p.hopping, E.hoppingComplex m = true) ∨ E.hasSym p.symmetry = true

theorem needsComplex_iff (p : Params E) : needsComplex p = true ↔ ComplexReason p := by
  unfold needsComplex ComplexReason
  simp only [Bool.or_eq_true, List.any_eq_true, or_assoc]

/-- **C65.** `is_complex()` is true if the registries or the modifiers have complex values or there is a symmetry; if
not, then only because a Hamiltonian was found to need it.  A new model makes a complex Hamiltonian exactly in these
cases. -/
theorem C65_complex (p : Params E) (ops : List (Op E)) :
    let s := run (fresh p) ops
    (ComplexReason s.p → s.isComplex = true) ∧
    (¬ ComplexReason s.p → (s.isComplex = true ↔ s.override = true)) ∧
    (ComplexReason s.p → (fresh s.p).hamiltonian.2 =
      (fresh s.p).system.2 >>= fun S => E.ham true (isDouble s.p) S s.p.lattice s.p.onsite s.p.hopping s.p.wave (simpleBuild s.p)) ∧
    (¬ ComplexReason s.p → ∀ S, (fresh s.p).system.2 = .ok S →
      E.ham false (isDouble s.p) S s.p.lattice s.p.onsite s.p.hopping s.p.wave (simpleBuild s.p) ≠ .err .complexOverride →
      (fresh s.p).hamiltonian.2 = E.ham false (isDouble s.p) S s.p.lattice s.p.onsite s.p.hopping s.p.wave (simpleBuild s.p)) := by
  intro s
  generalize s = s
  have hfresh : ∀ (q : Params E) s' S, (fresh q).system = (s', .ok S) → s'.ham = none ∧ s'.p = q ∧ s'.override = false := by
    intro q s' S h
    have h1 := system_p (fresh q)
    rw [h] at h1
    have hsys : (fresh q).sys = none := rfl
    unfold MState.system at h
    rw [hsys] at h
    simp only at h
    unfold MState.makeSystem at h
    rcases hF : fullFoundation (fresh q).p with F | e | _
    · rw [hF] at h
      simp only at h
      rcases hm : (makeStructure (fresh q).structs F (fresh q).p.specs).2 with u | e | _
      · rw [hm] at h
        simp only at h
        rcases hf : finishSystem (fresh q).p F with S' | e | _
        · rw [hf] at h
          simp only [Prod.mk.injEq] at h
          rw [← h.1]
          exact ⟨rfl, rfl, rfl⟩
        · rw [hf] at h; simp at h
        · rw [hf] at h; simp at h
      · rw [hm] at h; simp at h
      · rw [hm] at h; simp at h
    · rw [hF] at h; simp at h
    · rw [hF] at h; simp at h
  refine ⟨?_, ?_, ?_, ?_⟩
  · intro h
    unfold MState.isComplex
    rw [(needsComplex_iff _).2 h, Bool.true_or]
  · intro h
    have : needsComplex s.p = false := by
      rw [Bool.eq_false_iff]
      exact fun h' => h ((needsComplex_iff _).1 h')
    unfold MState.isComplex
    rw [this, Bool.false_or]
  · intro h
    unfold MState.hamiltonian
    rcases hs : (fresh s.p).system with ⟨s', S | e | _⟩
    · obtain ⟨e1, e2, e3⟩ := hfresh _ _ _ hs
      simp only [e1, Res.bind_ok]
      have hcx : s'.isComplex = true := by
        unfold MState.isComplex
        rw [e2, (needsComplex_iff _).2 h, Bool.true_or]
      have hm : s'.makeHamiltonian S = (s', makeHam s.p true S) := by
        unfold MState.makeHamiltonian
        rw [if_pos hcx, e2]
      rw [hm]
      simp only [makeHam]
      rcases E.ham true (isDouble s.p) S s.p.lattice s.p.onsite s.p.hopping s.p.wave (simpleBuild s.p) with x | e | _ <;> rfl
    · rfl
    · rfl
  · intro h S hS hne
    unfold MState.hamiltonian
    rcases hs : (fresh s.p).system with ⟨s', S' | e | _⟩
    · obtain ⟨e1, e2, e3⟩ := hfresh _ _ _ hs
      rw [hs] at hS
      simp only [Res.ok.injEq] at hS
      subst hS
      simp only [e1]
      have hcx : ¬ s'.isComplex = true := by
        unfold MState.isComplex
        rw [e2, e3, Bool.or_false, needsComplex_iff]
        exact h
      have hm : s'.makeHamiltonian S' = (s', makeHam s.p false S') := by
        unfold MState.makeHamiltonian
        rw [if_neg hcx, e2]
        simp only [makeHam]
      rw [hm]
      simp only [makeHam]
      rcases E.ham false (isDouble s.p) S' s.p.lattice s.p.onsite s.p.hopping s.p.wave (simpleBuild s.p) with x | e | _ <;> rfl
    · rw [hs] at hS; simp at hS
    · rw [hs] at hS; simp at hS

/-- The hypotheses of `C65_lead_at`: a history with two leads. -/
example : Clean (fresh toyFitParams) [.attachLead 1 1, .hamiltonian, .attachLead 2 1] ∧
    ∃ r, (run (fresh toyFitParams) [.attachLead 1 1, .hamiltonian, .attachLead 2 1]).leads.2 = .ok r :=
  ⟨⟨Or.inr (Or.inl ⟨_, _, rfl⟩), Or.inl rfl, Or.inr (Or.inl ⟨_, _, rfl⟩), trivial⟩, _, rfl⟩

/-- The hypothesis of `C65_parameters`, and the order of modifiers after clearing. -/
example : (run (fresh toyFitParams) [.addOnsite 1, .addHop 2, .clearHMods, .addOnsite 3, .hamiltonian, .addOnsite 4]).p.onsite = [3, 4] := by
  rw [(C65_parameters (E := toyFit) (by intro l q l' h; rfl) toyFitParams _).2.2.2.2.1]
  rfl

end Verif.Model
