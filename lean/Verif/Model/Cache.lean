import Verif.Basic

/-!
# Model of `Model`: parameters, lazy evaluation and cache invalidation

Source: `cppcore/src/Model.cpp`, `cppcore/include/Model.hpp`, `cppcore/src/leads/Leads.cpp`,
`cppcore/include/leads/Leads.hpp`.

What the building steps compute is modelled elsewhere (`Verif.Pipeline`, `Verif.Hamiltonian`,
`Verif.Leads`); here they are arbitrary deterministic functions, collected in `Env`, so that the
theorems about caching hold whatever they compute.  A building step may throw.  Every call returns
the state after the call together with the outcome, because a call that throws may have changed the
model before.  Timers are not modelled.
-/

namespace Verif.Model

/-- `Primitive::size`, Shape.hpp (three cell counts). Shape.hpp:11-16. -/
structure Prim where
  x : Nat
  y : Nat
  z : Nat
deriving DecidableEq, Repr

/-- The component `size[i]`. Shape.hpp:15. -/
def Prim.get (p : Prim) : Nat → Nat
  | 0 => p.x
  | 1 => p.y
  | _ => p.z

/-- The types of the parts of a model and the building steps. Model.cpp:143-187. -/
structure Env where
  Lat : Type
  Shp : Type
  Sym : Type
  Wave : Type
  State : Type
  Pos : Type
  SGen : Type
  HGen : Type
  Onsite : Type
  Hop : Type
  SReg : Type
  HReg : Type
  Fnd : Type
  Sys : Type
  Ham : Type
  Lead : Type
  LHam : Type
  /-- The complex matrix that a Hamiltonian of any scalar type stands for. -/
  Val : Type
  LVal : Type
  waveEq : DecidableEq Wave
  /-- `Lattice::ndim`. -/
  ndim : Lat → Nat
  /-- `Shape::operator bool`. -/
  hasShape : Shp → Bool
  /-- `TranslationalSymmetry::operator bool`. -/
  hasSym : Sym → Bool
  /-- `lattice.set_offset(lattice.get_offset() + shape.lattice_offset)`, may throw. -/
  setOffset : Lat → Shp → Res Lat
  /-- `site_registry.register_family(g.name, g.energy)`, may throw. -/
  registerSite : SReg → SGen → Res SReg
  /-- `hopping_registry.register_family(g.name, g.energy)`, may throw. -/
  registerHop : HReg → HGen → Res HReg
  siteComplex : SReg → Bool
  hopComplex : HReg → Bool
  onsiteComplex : Onsite → Bool
  hoppingComplex : Hop → Bool
  onsiteDouble : Onsite → Bool
  hoppingDouble : Hop → Bool
  /-- `Foundation(lattice, shape)` or `Foundation(lattice, primitive)`. -/
  foundation : Lat → Prim ⊕ Shp → Res Fnd
  /-- `symmetry.apply(foundation)`. -/
  applySym : Sym → Fnd → Res Fnd
  /-- `apply(modifier, foundation)` for the two kinds which do not require a system. -/
  applyState : State → Fnd → Res Fnd
  applyPos : Pos → Fnd → Res Fnd
  /-- `leads::create_attachment_area(foundation, spec)`. -/
  attach : Fnd → Int × Shp → Res Fnd
  /-- The constructor of `leads::Structure`. -/
  lead : Fnd → Int × Shp → Res Lead
  /-- `System(...)`, `populate_system` and, if there is a symmetry, `populate_boundaries`. -/
  populate : SReg → HReg → Fnd → Option Sym → Res Sys
  /-- `apply(modifier, system)`. -/
  sysState : State → Sys → Res Sys
  sysPos : Pos → Sys → Res Sys
  sysSGen : SGen → Sys → Res Sys
  sysHGen : HGen → Sys → Res Sys
  /-- `remove_invalid` and the check for zero sites. -/
  finish : Sys → Res Sys
  /-- `ham::make<scalar>`: arguments complex, double, system, lattice, modifiers, wave vector,
  simple build. -/
  ham : Bool → Bool → Sys → Lat → List Onsite → List Hop → Wave → Bool → Res Ham
  /-- The constructor of `leads::HamiltonianPair`: complex, double, lead, lattice, modifiers. -/
  leadHam : Bool → Bool → Lead → Lat → List Onsite → List Hop → Res LHam
  value : Ham → Val
  leadValue : LHam → LVal

variable (E : Env)

/-- `StructureModifier`, StructureModifiers.hpp:116-155. -/
inductive SMod where
  | state (m : E.State)
  | pos (m : E.Pos)
  | sgen (g : E.SGen)
  | hgen (g : E.HGen)

variable {E}

/-- `requires_system` and `is_generator`, StructureModifiers.hpp:99-105 (they agree). -/
def SMod.isGen : SMod E → Bool
  | .state _ => false
  | .pos _ => false
  | .sgen _ => true
  | .hgen _ => true

/-- `apply(modifier, foundation)`: generators have an empty implementation for foundations.
StructureModifiers.cpp:8-17, 36-41. -/
def SMod.onFnd : SMod E → E.Fnd → Res E.Fnd
  | .state m, f => E.applyState m f
  | .pos m, f => E.applyPos m f
  | .sgen _, f => .ok f
  | .hgen _, f => .ok f

/-- `apply(modifier, system)`. StructureModifiers.cpp:19-34, 43-68. -/
def SMod.onSys : SMod E → E.Sys → Res E.Sys
  | .state m, s => E.sysState m s
  | .pos m, s => E.sysPos m s
  | .sgen g, s => E.sysSGen g s
  | .hgen g, s => E.sysHGen g s

variable (E)

/-- The parameters of a model, Model.hpp:87-98, and the lead specifications, Leads.hpp:32. -/
structure Params where
  lattice : E.Lat
  sreg : E.SReg
  hreg : E.HReg
  primitive : Prim
  shape : E.Shp
  symmetry : E.Sym
  wave : E.Wave
  smods : List (SMod E)
  onsite : List E.Onsite
  hopping : List E.Hop
  specs : List (Int × E.Shp)

/-- A model, Model.hpp:86-106: the parameters, the cached results and `complex_override`. -/
structure MState where
  p : Params E
  sys : Option E.Sys
  ham : Option E.Ham
  structs : List E.Lead
  lhams : List E.LHam
  override : Bool

variable {E}

/-- A model with nothing evaluated yet. Model.cpp:8-11. -/
def fresh (p : Params E) : MState E := ⟨p, none, none, [], [], false⟩

/-- `Model::clear_hamiltonian`, Model.cpp:212-215, with `Leads::clear_hamiltonian`,
Leads.cpp:36-38. -/
def MState.clearHamiltonian (s : MState E) : MState E := { s with ham := none, lhams := [] }

/-- `Model::clear_structure`, Model.cpp:206-210, with `Leads::clear_structure`,
Leads.cpp:31-34. -/
def MState.clearStructure (s : MState E) : MState E :=
  MState.clearHamiltonian { s with sys := none, structs := [], lhams := [] }

/-! ## Changes -/

/-- The check of `add(Primitive)`, Model.cpp:15-19: a size other than one in a direction the lattice
does not have. -/
def tooManyDims (n : Nat) (q : Prim) : Bool :=
  (List.range 3).any fun i => decide (n ≤ i) && decide (q.get i ≠ 1)

/-- `Model::add(Primitive)`, Model.cpp:13-21: the parameter is assigned before the check. -/
def MState.addPrimitive (s : MState E) (q : Prim) : MState E × Res Unit :=
  let s' : MState E := { s with p := { s.p with primitive := q } }
  if tooManyDims (E.ndim s.p.lattice) q then (s', .err .logicError)
  else (s'.clearStructure, .ok ())

/-- `Model::set_wave_vector`, Model.cpp:23-28. -/
def MState.setWave (s : MState E) (k : E.Wave) : MState E × Res Unit :=
  if @decide (s.p.wave = k) (E.waveEq _ _) then (s, .ok ())
  else (MState.clearHamiltonian { s with p := { s.p with wave := k } }, .ok ())

/-- `Model::add(Shape)`, Model.cpp:30-34: the shape is assigned before `set_offset` may throw. -/
def MState.addShape (s : MState E) (q : E.Shp) : MState E × Res Unit :=
  let s' : MState E := { s with p := { s.p with shape := q } }
  match E.setOffset s.p.lattice q with
  | .ok l => (MState.clearStructure { s' with p := { s'.p with lattice := l } }, .ok ())
  | .err e => (s', .err e)
  | .ub => (s', .ub)

/-- `Model::add(TranslationalSymmetry)`, Model.cpp:36-39. -/
def MState.addSymmetry (s : MState E) (q : E.Sym) : MState E × Res Unit :=
  (MState.clearStructure { s with p := { s.p with symmetry := q } }, .ok ())

/-- `Model::attach_lead`, Model.cpp:41-53. -/
def MState.attachLead (s : MState E) (d : Int) (q : E.Shp) : MState E × Res Unit :=
  if d = 0 then (s, .err .logicError)
  else if E.ndim s.p.lattice = 1 then (s, .err .logicError)
  else if d.natAbs > E.ndim s.p.lattice then (s, .err .logicError)
  else (MState.clearStructure { s with p := { s.p with specs := s.p.specs ++ [(d, q)] } }, .ok ())

/-- `Model::add(SiteStateModifier)`, Model.cpp:55-58. -/
def MState.addState (s : MState E) (m : E.State) : MState E × Res Unit :=
  (MState.clearStructure { s with p := { s.p with smods := s.p.smods ++ [.state m] } }, .ok ())

/-- `Model::add(PositionModifier)`, Model.cpp:60-63. -/
def MState.addPos (s : MState E) (m : E.Pos) : MState E × Res Unit :=
  (MState.clearStructure { s with p := { s.p with smods := s.p.smods ++ [.pos m] } }, .ok ())

/-- `Model::add(OnsiteModifier)`, Model.cpp:65-68. -/
def MState.addOnsite (s : MState E) (m : E.Onsite) : MState E × Res Unit :=
  (MState.clearHamiltonian { s with p := { s.p with onsite := s.p.onsite ++ [m] } }, .ok ())

/-- `Model::add(HoppingModifier)`, Model.cpp:70-73. -/
def MState.addHop (s : MState E) (m : E.Hop) : MState E × Res Unit :=
  (MState.clearHamiltonian { s with p := { s.p with hopping := s.p.hopping ++ [m] } }, .ok ())

/-- `Model::add(SiteGenerator)`, Model.cpp:75-79: the modifier is stored before `register_family`
may throw. -/
def MState.addSGen (s : MState E) (g : E.SGen) : MState E × Res Unit :=
  let s' : MState E := { s with p := { s.p with smods := s.p.smods ++ [.sgen g] } }
  match E.registerSite s.p.sreg g with
  | .ok r => (MState.clearStructure { s' with p := { s'.p with sreg := r } }, .ok ())
  | .err e => (s', .err e)
  | .ub => (s', .ub)

/-- `Model::add(HoppingGenerator)`, Model.cpp:81-85. -/
def MState.addHGen (s : MState E) (g : E.HGen) : MState E × Res Unit :=
  let s' : MState E := { s with p := { s.p with smods := s.p.smods ++ [.hgen g] } }
  match E.registerHop s.p.hreg g with
  | .ok r => (MState.clearStructure { s' with p := { s'.p with hreg := r } }, .ok ())
  | .err e => (s', .err e)
  | .ub => (s', .ub)

/-- `clear_structure_modifiers`, Model.hpp:81: no cached result is cleared. -/
def MState.clearSMods (s : MState E) : MState E × Res Unit :=
  ({ s with p := { s.p with smods := [] } }, .ok ())

/-- `clear_hamiltonian_modifiers`, Model.hpp:82: no cached result is cleared. -/
def MState.clearHMods (s : MState E) : MState E × Res Unit :=
  ({ s with p := { s.p with onsite := [], hopping := [] } }, .ok ())

/-! ## Evaluation -/

/-- A loop which appends `f x` for every `x` to `acc` and stops at the first exception, keeping what
was appended (the loops of Leads.cpp:16-18 and 27-29). -/
def pushAll {α β : Type} (f : α → Res β) : List α → List β → List β × Res Unit
  | [], acc => (acc, .ok ())
  | x :: rest, acc =>
    match f x with
    | .ok y => pushAll f rest (acc ++ [y])
    | .err e => (acc, .err e)
    | .ub => (acc, .ub)

/-- A loop that applies `f` for every element in turn and stops at the first exception.
Model.cpp:154-156, 167-169; leads/Leads.cpp:5-9. -/
def applyAll {α β : Type} (f : α → β → Res β) : List α → β → Res β
  | [], b => .ok b
  | x :: rest, b =>
    match f x b with
    | .ok b' => applyAll f rest b'
    | .err e => .err e
    | .ub => .ub

/-- `Leads::make_structure`, Leads.cpp:11-19: nothing is done if there already are structures. -/
def makeStructure (structs : List E.Lead) (F : E.Fnd) (specs : List (Int × E.Shp)) :
    List E.Lead × Res Unit :=
  if structs.isEmpty then pushAll (E.lead F) specs [] else (structs, .ok ())

/-- `Leads::make_hamiltonian`, Leads.cpp:21-30. -/
def makeLeadHams (lhams : List E.LHam) (structs : List E.Lead) (p : Params E) (dbl cplx : Bool) :
    List E.LHam × Res Unit :=
  if lhams.isEmpty then
    pushAll (fun l => E.leadHam cplx dbl l p.lattice p.onsite p.hopping) structs []
  else (lhams, .ok ())

/-- The foundation of `make_system`, Model.cpp:143-144. -/
def baseFoundation (p : Params E) : Res E.Fnd :=
  if E.hasShape p.shape then E.foundation p.lattice (.inr p.shape)
  else E.foundation p.lattice (.inl p.primitive)

/-- `if (symmetry) symmetry.apply(foundation)`, Model.cpp:145-147. -/
def symFoundation (p : Params E) (F : E.Fnd) : Res E.Fnd :=
  if E.hasSym p.symmetry then E.applySym p.symmetry F else .ok F

/-- The foundation modifiers, Model.cpp:149-151. -/
def fndMods (p : Params E) : List (SMod E) := p.smods.takeWhile fun m => !m.isGen

/-- The system modifiers, Model.cpp:152. -/
def sysMods (p : Params E) : List (SMod E) := p.smods.dropWhile fun m => !m.isGen

/-- `make_system` up to `create_attachment_area`, Model.cpp:143-158. -/
def fullFoundation (p : Params E) : Res E.Fnd := do
  let F ← baseFoundation p
  let F ← symFoundation p F
  let F ← applyAll SMod.onFnd (fndMods p) F
  applyAll (fun sp F => E.attach F sp) p.specs F

/-- `make_system` after `make_structure`, Model.cpp:161-175. -/
def finishSystem (p : Params E) (F : E.Fnd) : Res E.Sys := do
  let S ← E.populate p.sreg p.hreg F (if E.hasSym p.symmetry then some p.symmetry else none)
  let S ← applyAll SMod.onSys (sysMods p) S
  E.finish S

/-- `Model::make_system`, Model.cpp:142-176.  It changes the mutable `_leads`. -/
def MState.makeSystem (s : MState E) : MState E × Res E.Sys :=
  match fullFoundation s.p with
  | .ok F =>
    let st := makeStructure s.structs F s.p.specs
    let s' : MState E := { s with structs := st.1 }
    match st.2 with
    | .ok () => (s', finishSystem s.p F)
    | .err e => (s', .err e)
    | .ub => (s', .ub)
  | .err e => (s, .err e)
  | .ub => (s, .ub)

/-- `Model::system`, Model.cpp:100-107. -/
def MState.system (s : MState E) : MState E × Res E.Sys :=
  match s.sys with
  | some S => (s, .ok S)
  | none =>
    match s.makeSystem with
    | (s', .ok S) => ({ s' with sys := some S }, .ok S)
    | (s', .err e) => (s', .err e)
    | (s', .ub) => (s', .ub)

/-- `Model::is_double`, Model.cpp:91-93. -/
def isDouble (p : Params E) : Bool := p.onsite.any E.onsiteDouble || p.hopping.any E.hoppingDouble

/-- `Model::is_complex` without the override, Model.cpp:95-98. -/
def needsComplex (p : Params E) : Bool :=
  E.siteComplex p.sreg || E.hopComplex p.hreg
    || (p.onsite.any E.onsiteComplex || p.hopping.any E.hoppingComplex) || E.hasSym p.symmetry

/-- `Model::is_complex`, Model.cpp:95-98. -/
def MState.isComplex (s : MState E) : Bool := needsComplex s.p || s.override

/-- `simple_build`, Model.cpp:182-185. -/
def simpleBuild (p : Params E) : Bool := !(p.smods.any SMod.isGen)

/-- `ham::make` for the parameters of the model, Model.cpp:189-193, 200-203. -/
def makeHam (p : Params E) (cplx : Bool) (S : E.Sys) : Res E.Ham :=
  E.ham cplx (isDouble p) S p.lattice p.onsite p.hopping p.wave (simpleBuild p)

/-- `Model::make_hamiltonian`, Model.cpp:178-204; `system()` has just been evaluated. -/
def MState.makeHamiltonian (s : MState E) (S : E.Sys) : MState E × Res E.Ham :=
  if s.isComplex then (s, makeHam s.p true S)
  else
    match makeHam s.p false S with
    | .err .complexOverride => ({ s with override := true }, makeHam s.p true S)
    | r => (s, r)

/-- `Model::hamiltonian`, Model.cpp:109-117. -/
def MState.hamiltonian (s : MState E) : MState E × Res E.Ham :=
  match s.system with
  | (s, .ok S) =>
    match s.ham with
    | some h => (s, .ok h)
    | none =>
      match s.makeHamiltonian S with
      | (s', .ok h) => ({ s' with ham := some h }, .ok h)
      | (s', .err e) => (s', .err e)
      | (s', .ub) => (s', .ub)
  | (s, .err e) => (s, .err e)
  | (s, .ub) => (s, .ub)

/-- `Model::leads`, Model.cpp:119-124. -/
def MState.leads (s : MState E) : MState E × Res (List E.Lead × List E.LHam) :=
  match s.system with
  | (s, .ok _) =>
    match s.hamiltonian with
    | (s, .ok _) =>
      let r := makeLeadHams s.lhams s.structs s.p (isDouble s.p) s.isComplex
      let s' : MState E := { s with lhams := r.1 }
      match r.2 with
      | .ok () => (s', .ok (s'.structs, s'.lhams))
      | .err e => (s', .err e)
      | .ub => (s', .ub)
    | (s, .err e) => (s, .err e)
    | (s, .ub) => (s, .ub)
  | (s, .err e) => (s, .err e)
  | (s, .ub) => (s, .ub)

/-- `Leads::operator[]`, Leads.hpp:39, with its three `.at(i)`. -/
def leadAt (specs : List (Int × E.Shp)) (r : List E.Lead × List E.LHam) (i : Nat) :
    Res ((Int × E.Shp) × E.Lead × E.LHam) :=
  match specs[i]?, r.1[i]?, r.2[i]? with
  | some sp, some l, some h => .ok (sp, l, h)
  | _, _, _ => .err .outOfRange

/-- `Model::eval`, Model.cpp:126-131. -/
def MState.eval (s : MState E) : MState E × Res Unit :=
  match s.system with
  | (s, .ok _) =>
    match s.hamiltonian with
    | (s, .ok _) =>
      match s.leads with
      | (s, .ok _) => (s, .ok ())
      | (s, .err e) => (s, .err e)
      | (s, .ub) => (s, .ub)
    | (s, .err e) => (s, .err e)
    | (s, .ub) => (s, .ub)
  | (s, .err e) => (s, .err e)
  | (s, .ub) => (s, .ub)

/-! ## Histories -/

variable (E)

/-- Every call that changes or reads a model. Model.hpp:30-83. -/
inductive Op where
  | addPrimitive (q : Prim)
  | addShape (q : E.Shp)
  | addSymmetry (q : E.Sym)
  | attachLead (d : Int) (q : E.Shp)
  | addState (m : E.State)
  | addPos (m : E.Pos)
  | addOnsite (m : E.Onsite)
  | addHop (m : E.Hop)
  | addSGen (g : E.SGen)
  | addHGen (g : E.HGen)
  | setWave (k : E.Wave)
  | clearSMods
  | clearHMods
  | system
  | hamiltonian
  | leads
  | eval

variable {E}

/-- Forget the value of an outcome.
No counterpart in the code: the caller of the functions in Model.hpp:30-83. -/
def outcome {α : Type} : Res α → Res Unit
  | .ok _ => .ok ()
  | .err e => .err e
  | .ub => .ub

/-- One call: the model after it and whether it returned or threw.
The functions of Model.hpp:30-83. -/
def MState.step (s : MState E) : Op E → MState E × Res Unit
  | .addPrimitive q => s.addPrimitive q
  | .addShape q => s.addShape q
  | .addSymmetry q => s.addSymmetry q
  | .attachLead d q => s.attachLead d q
  | .addState m => s.addState m
  | .addPos m => s.addPos m
  | .addOnsite m => s.addOnsite m
  | .addHop m => s.addHop m
  | .addSGen g => s.addSGen g
  | .addHGen g => s.addHGen g
  | .setWave k => s.setWave k
  | .clearSMods => s.clearSMods
  | .clearHMods => s.clearHMods
  | .system => (s.system.1, outcome s.system.2)
  | .hamiltonian => (s.hamiltonian.1, outcome s.hamiltonian.2)
  | .leads => (s.leads.1, outcome s.leads.2)
  | .eval => s.eval

/-- A history of calls; calls that throw are part of it.
No counterpart in the code: the caller of the functions in Model.hpp:30-83. -/
def run : MState E → List (Op E) → MState E
  | s, [] => s
  | s, op :: rest => run (s.step op).1 rest

end Verif.Model
