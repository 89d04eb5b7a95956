import Verif.Basic

/-!
# Model of the state kept by `KPM` between calculations

Source: `cppcore/src/KPM.cpp`, `cppcore/src/kpm/Core.cpp`, `cppcore/src/kpm/Bounds.cpp`,
`cppcore/src/kpm/OptimizedHamiltonian.cpp`.

What the calculations compute is modelled in the other files of this directory; here they are
arbitrary deterministic functions which may throw (the random vectors come from a generator that
every calculation seeds anew, Starter.cpp:49, so they are deterministic as well).  Timers and
statistics are not modelled.
-/

namespace Verif.Kpm.Cache

/-- `kpm::Indices`, OptimizedHamiltonian.hpp:19-50. -/
structure Idx where
  src : List Nat
  dst : List Nat
deriving DecidableEq, Repr

/-- The types and computations a KPM object uses. Core.cpp:17-150; KPM.cpp:5-17. -/
structure Env where
  Model : Type
  Ham : Type
  Energy : Type
  Scale : Type
  Opt : Type
  Request : Type
  Query : Type
  Out : Type
  energyEq : DecidableEq Energy
  /-- `Model::hamiltonian`, may throw. -/
  ham : Model → Res Ham
  /-- `compute::minmax_eigenvalues`. -/
  lanczos : Ham → Energy × Energy
  /-- The bounds of the configuration, `config.min_energy` and `config.max_energy`. -/
  userBounds : Energy × Energy
  /-- The initial value of `min` and `max`. -/
  zero : Energy
  /-- `Scale(min, max)`. -/
  scale : Energy → Energy → Scale
  /-- The matrix of an `OptimizedHamiltonian` right after construction. -/
  empty : Ham → Opt
  /-- `create_scaled`, `create_reordered` and the conversion of the format. -/
  optimize : Ham → Idx → Scale → Opt
  /-- Checks and translation of the arguments, which use the model, may throw. -/
  prepare : Model → Request → Res Query
  /-- The indices a calculation is optimised for. -/
  idx : Query → Idx
  /-- The calculation itself. -/
  result : Query → Scale → Opt → Res Out

variable {E : Env}

/-- `kpm::Bounds`, Bounds.hpp: the Hamiltonian (absent for bounds set by the user), `min`, `max`. -/
structure Bounds (E : Env) where
  ham : Option E.Ham
  min : E.Energy
  max : E.Energy

/-- `kpm::OptimizedHamiltonian`: `original_h`, `original_idx`, the optimised matrix with its
indices and maps. OptimizedHamiltonian.hpp:115-136. -/
structure OptHam (E : Env) where
  ham : E.Ham
  idx : Idx
  opt : E.Opt

/-- `kpm::Core`. kpm/Core.hpp:45-90. -/
structure Core (E : Env) where
  bounds : Bounds E
  oh : OptHam E

/-- `KPM`. KPM.hpp:9-45. -/
structure Kpm (E : Env) where
  model : E.Model
  core : Core E

/-- `reset_bounds`, Core.cpp:8-14. -/
def resetBounds (h : E.Ham) : Bounds E :=
  if @decide (E.userBounds.1 = E.userBounds.2) (E.energyEq _ _) then ⟨some h, E.zero, E.zero⟩
  else ⟨none, E.userBounds.1, E.userBounds.2⟩

/-- `Core::Core` and `Core::set_hamiltonian`, Core.cpp:17-29. -/
def makeCore (h : E.Ham) : Core E := ⟨resetBounds h, ⟨h, ⟨[], []⟩, E.empty h⟩⟩

/-- `Bounds::compute_bounds`, Bounds.cpp:21-32. -/
def Bounds.compute (b : Bounds E) : Bounds E :=
  match b.ham with
  | none => b
  | some h =>
    if @decide (b.min = b.max) (E.energyEq _ _) then ⟨some h, (E.lanczos h).1, (E.lanczos h).2⟩ else b

/-- `OptimizedHamiltonian::optimize_for`, OptimizedHamiltonian.cpp:43-53. -/
def OptHam.optimizeFor (o : OptHam E) (i : Idx) (s : E.Scale) : OptHam E :=
  if o.idx = i then o else ⟨o.ham, i, E.optimize o.ham i s⟩

/-- The common part of `Core::moments`, `ldos`, `dos`, `greens_vector` and `conductivity`,
Core.cpp:36-150: scaling factors, optimisation, calculation. -/
def Core.run (c : Core E) (q : E.Query) : Core E × Res E.Out :=
  let b := c.bounds.compute
  let s := E.scale b.min b.max
  let o := c.oh.optimizeFor (E.idx q) s
  (⟨b, o⟩, E.result q s o.opt)

/-- The constructor, KPM.cpp:7-8. -/
def create (m : E.Model) : Res (Kpm E) :=
  match E.ham m with
  | .ok h => .ok ⟨m, makeCore h⟩
  | .err e => .err e
  | .ub => .ub

/-- `KPM::set_model`, KPM.cpp:10-13: the model is assigned before its Hamiltonian is evaluated. -/
def Kpm.setModel (k : Kpm E) (m : E.Model) : Kpm E × Res Unit :=
  match E.ham m with
  | .ok h => (⟨m, makeCore h⟩, .ok ())
  | .err e => (⟨m, k.core⟩, .err e)
  | .ub => (⟨m, k.core⟩, .ub)

/-- A calculation, KPM.cpp:19-148: the checks come first and change nothing. -/
def Kpm.compute (k : Kpm E) (r : E.Request) : Kpm E × Res E.Out :=
  match E.prepare k.model r with
  | .ok q => (⟨k.model, (k.core.run q).1⟩, (k.core.run q).2)
  | .err e => (k, .err e)
  | .ub => (k, .ub)

/-- The calls of a history. KPM.hpp:11-45. -/
inductive Op (E : Env) where
  | setModel (m : E.Model)
  | compute (r : E.Request)

/-- A history of calls; calls that throw are part of it.
No counterpart in the code: the caller of the functions in KPM.hpp:11-45. -/
def run : Kpm E → List (Op E) → Kpm E
  | k, [] => k
  | k, .setModel m :: rest => run (k.setModel m).1 rest
  | k, .compute r :: rest => run (k.compute r).1 rest

end Verif.Kpm.Cache
